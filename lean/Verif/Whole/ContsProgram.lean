/-
  C144: the complete program with all continuations from the configuration file on.
-/
import Verif.Whole.FitsProgram
import Verif.Whole.ContsEx

noncomputable section

namespace DGA.Whole

open DGA.Bz DGA.Wan DGA.WanIo DGA.Pipe DGA.Pairing DGA.Report DGA.Inp DGA.Two DGA.Mf
open DGA.RankFiles (Str)

/-! ### Model -/

/-- analytic_continuation.py:231-248 the attributes before the defaults (those the data handling reads) -/
def contInit : Cfg.Dict := [("do_cont", .bool true), ("mesh_type", .null), ("wmin", .int (-15)), ("wmax", .int 15), ("cut", .null), ("nwr", .null), ("bw", .null),
  ("n_fit", .null), ("force_preblur", .bool false)]

/-- analytic_continuation.py:202-218 `MAX_ENT_DEFAULT_SETTINGS` (those the data handling reads; the others belong to the optimisation) -/
def contDefaults : Cfg.Dict := [("cut", .num (4 / 100)), ("n_fit", .int 20), ("bw", .num (1 / 100)), ("nwr", .int 501), ("wmax", .int 15), ("wmin", .int (-15)),
  ("mesh_type", .str "tan")]

/-- analytic_continuation.py:231-265: the instance dictionary of a controller, from `me_config` and the keyword arguments -/
def contDict (cfg kwargs : Cfg.Dict) : Cfg.Dict := Cfg.update (Cfg.update (Cfg.update contInit contDefaults) cfg) kwargs

/-- a number of the file -/
def realVal : Cfg.Val → Option ℝ
  | .int i => some i
  | .num q => some q
  | _ => none

/-- the settings the data handling reads from the dictionary, without `n_fit`; values of other kinds than those of the defaults are outside the model -/
def contRead (D : Cfg.Dict) (nFit : Nat) : Option (ContSet × Bool) :=
  match D.lookup "nwr", (D.lookup "wmin").bind realVal, (D.lookup "wmax").bind realVal, (D.lookup "bw").bind realVal, D.lookup "mesh_type", D.lookup "cut",
    D.lookup "force_preblur", D.lookup "do_cont" with
  | some (.int nwr), some wmin, some wmax, some bw, some (.str mesh), some cut, some (.bool force), some (.bool doCont) =>
    if nwr < 0 then none else
    match cut with
    | .null => some (⟨nFit, nwr.toNat, wmin, wmax, bw, mesh, none, force⟩, doCont)
    | _ => (realVal cut).map fun c => (⟨nFit, nwr.toNat, wmin, wmax, bw, mesh, some c, force⟩, doCont)
  | _, _, _, _, _, _, _, _ => none

/-- names a section must not define: as keyword arguments of the constructor (228) they raise, as attributes they replace the temperature or a method; the
    latter are outside the model -/
def taken : List String := ["self", "beta", "kernel_mode", "comm", "me_config", "set_w_mesh", "get_im_freq", "cut_matrix", "get_model", "cont_single_ind",
  "analytic_continuation"]

/-- no name of the list is defined -/
def free (names : List String) (d : Cfg.Dict) : Bool := names.all fun k => (d.lookup k).isNone

/-- dga_max_ent.py:87-90, 131-133, 151-153, 173-176: the subsection `name` of `max_ent`; without entries it is `None`, which raises -/
def subOf (sec : Cfg.Dict) (name : String) : Option (Option (ContSet × Bool)) :=
  match sec.lookup name with
  | none => some none
  | some (.dict sub) =>
    if free taken sub then
      match (contDict sec sub).lookup "n_fit" with
      | some (.int n) => if n < 0 then none else (contRead (contDict sec sub) n.toNat).map some
      | _ => none
    else none
  | some _ => none

/-- dga_main.py:384-389, dga_max_ent.py:58-59, 87-176: the section `max_ent`; without entries it is `None`, which raises (config.py:347).  The local
    continuation (`loc`) is outside the model (C112). -/
def maxEntOf (conf : Cfg.CfgFile) : Option (Option MaxEntPlan) :=
  match conf.lookup "max_ent" with
  | none => some none
  | some none => none
  | some (some sec) =>
    if free ("loc" :: taken) sec then
      match subOf sec "s_dga", subOf sec "g_dga", subOf sec "chi_d", subOf sec "chi_m" with
      | some s, some g, some d, some m => some (some ⟨s, g, d, m⟩)
      | _, _, _, _ => none
    else none

/-- dga_main.py:355-368: the subsection `max_ent` of `optics`; an optics section without entries, or such a subsection, raises (`'max_ent' in None`).  A number
    of frequencies of `-1` is replaced by `niw_cond` (365-367). -/
def condOf (conf : Cfg.CfgFile) : Option (Option (ContSet × Bool)) :=
  match conf.lookup "optics" with
  | none => some none
  | some none => none
  | some (some sec) =>
    match sec.lookup "max_ent" with
    | none => some none
    | some (.dict sub) =>
      if free taken sub then
        match (contDict sub []).lookup "n_fit" with
        | some (.int n) =>
          if n = -1 then (contRead (contDict sub []) 0).map fun r => some (r.1, true)
          else if n < 0 then none
          else (contRead (contDict sub []) n.toNat).map fun r => some (r.1, false)
        | _ => none
      else none
    | some _ => none

/-- dga_main.py:355-391: all continuations -/
def contsOf (conf : Cfg.CfgFile) : Option ContPlan :=
  match condOf conf, maxEntOf conf with
  | some c, some m => some ⟨c, m⟩
  | _, _ => none

/-- the file without the continuation in its optics section, which `OpticsConfig` only stores (config.py:433-444) -/
def dropCont (conf : Cfg.CfgFile) : Cfg.CfgFile := conf.map fun p => (p.1, if p.1 = "optics" then p.2.map fun d => d.filter fun e => e.1 != "max_ent" else p.2)

/-- the momentum grid and the results of a complete run on it -/
abbrev ContsResult := Σ n : Nat × Nat × Nat, OneOut n.1 n.2.1 n.2.2 × Option PolyFits × ContsOut

/-- the complete run for given settings; grids without points are rejected before (config.py:563-565) if there is a rank -/
def mainContsOf (fs : Inp.Fs) (s : Setup) (P : Plan) (saveFq : Bool) (F : Option (Nat × Nat)) (fit : Fitter) (C : ContPlan) (T : Tools)
    (X : ∀ nx ny nz, Chance nx ny nz) : Except String ContsResult :=
  if h : s.S.nx ≠ 0 ∧ s.S.ny ≠ 0 ∧ s.S.nz ≠ 0 then
    haveI : NeZero s.S.nx := ⟨h.1⟩
    haveI : NeZero s.S.ny := ⟨h.2.1⟩
    haveI : NeZero s.S.nz := ⟨h.2.2⟩
    match mainConts fs s.ty s.path s.f1 s.f2 s.S P saveFq F fit C T (X s.S.nx s.S.ny s.S.nz) with
    | .error e => .error e
    | .ok r => .ok ⟨(s.S.nx, s.S.ny, s.S.nz), r⟩
  else .error "outside"

/-- dga_main.py:41-397: the complete program from the configuration file on -/
def programConts (fs : Inp.Fs) (wan : String → Option (List Str)) (conf : Cfg.CfgFile) (ranks : Nat) (fit : Fitter) (T : Tools) (X : ∀ nx ny nz, Chance nx ny nz) :
    Except String ContsResult :=
  match setupOf wan conf ranks with
  | .error e => .error e
  | .ok s =>
    match planOf (dropCont conf), saveFqOf conf, fitsOf conf, contsOf conf with
    | some P, some saveFq, some F, some C => mainContsOf fs s P saveFq F fit C T X
    | _, _, _, _ => .error "outside"

/-! ### Specification -/

/-- the value of a setting of a continuation: that of the subsection, else that of the section `max_ent`, else the default -/
def contVal (sec sub : Cfg.Dict) (k : String) (dflt : Cfg.Val) : Cfg.Val := (sub.lookup k).getD ((sec.lookup k).getD dflt)

/-- What a subsection means for the mesh and the other settings of a continuation, with the documented defaults: 501 points of the `tan` mesh from -15 to 15, cut-off
    0.04, blur width 0.01, no forced blur, the continuation is made. -/
structure MeansCont (sec sub : Cfg.Dict) (K : ContSet) (doCont : Bool) : Prop where
  nwr : contVal sec sub "nwr" (.int 501) = .int K.nwr
  wmin : IsNum (contVal sec sub "wmin" (.int (-15))) K.wmin
  wmax : IsNum (contVal sec sub "wmax" (.int 15)) K.wmax
  bw : IsNum (contVal sec sub "bw" (.num (1 / 100))) K.bw
  mesh : contVal sec sub "mesh_type" (.str "tan") = .str K.mesh
  cut : (contVal sec sub "cut" (.num (4 / 100)) = .null ∧ K.cut = none) ∨ ∃ c, IsNum (contVal sec sub "cut" (.num (4 / 100))) c ∧ K.cut = some c
  force : contVal sec sub "force_preblur" (.bool false) = .bool K.force
  doCont : contVal sec sub "do_cont" (.bool true) = .bool doCont

/-- What the subsection `name` of `max_ent` asks for: nothing if it is not there, else a continuation from `n_fit` frequencies, 20 without the entry -/
def MeansSub (sec : Cfg.Dict) (name : String) (y : Option (ContSet × Bool)) : Prop :=
  (sec.lookup name = none ∧ y = none) ∨
    ∃ sub K doCont, sec.lookup name = some (.dict sub) ∧ y = some (K, doCont) ∧ (∀ k ∈ taken, sub.lookup k = none) ∧
      contVal sec sub "n_fit" (.int 20) = .int K.nFit ∧ MeansCont sec sub K doCont

/-- What a configuration file asks to be continued. -/
structure MeansConts (conf : Cfg.CfgFile) (C : ContPlan) : Prop where
  cond : (conf.lookup "optics" = none ∧ C.cond = none) ∨ ∃ sec, conf.lookup "optics" = some (some sec) ∧
    ((sec.lookup "max_ent" = none ∧ C.cond = none) ∨ ∃ sub K b, sec.lookup "max_ent" = some (.dict sub) ∧ (∀ k ∈ taken, sub.lookup k = none) ∧ MeansCont [] sub K b ∧
      ((contVal [] sub "n_fit" (.int 20) = .int (-1) ∧ K.nFit = 0 ∧ C.cond = some (K, true)) ∨
        (contVal [] sub "n_fit" (.int 20) = .int K.nFit ∧ C.cond = some (K, false))))
  maxEnt : (conf.lookup "max_ent" = none ∧ C.maxEnt = none) ∨ ∃ sec M, conf.lookup "max_ent" = some (some sec) ∧ C.maxEnt = some M ∧
    (∀ k ∈ "loc" :: taken, sec.lookup k = none) ∧ MeansSub sec "s_dga" M.s ∧ MeansSub sec "g_dga" M.g ∧ MeansSub sec "chi_d" M.d ∧ MeansSub sec "chi_m" M.m

/-! ### Theorems -/

theorem free_iff (names : List String) (d : Cfg.Dict) : free names d = true ↔ ∀ k ∈ names, d.lookup k = none := by
  simp [free]

theorem contDict_lookup (sec sub : Cfg.Dict) (h1 : (sec.map Prod.fst).Nodup) (h2 : (sub.map Prod.fst).Nodup) (k : String) :
    (contDict sec sub).lookup k = (sub.lookup k).or ((sec.lookup k).or ((contDefaults.lookup k).or (contInit.lookup k))) := by
  unfold contDict
  rw [Cfg.lookup_update _ _ h2, Cfg.lookup_update _ _ h1, Cfg.lookup_update _ _ (by simp [contDefaults])]

theorem contDict_val (sec sub : Cfg.Dict) (h1 : (sec.map Prod.fst).Nodup) (h2 : (sub.map Prod.fst).Nodup) (k : String) (v : Cfg.Val)
    (h : (contDefaults.lookup k).or (contInit.lookup k) = some v) : (contDict sec sub).lookup k = some (contVal sec sub k v) := by
  rw [contDict_lookup sec sub h1 h2, h]
  unfold contVal
  cases sub.lookup k <;> cases sec.lookup k <;> rfl

theorem realVal_iff (v : Cfg.Val) (x : ℝ) : realVal v = some x ↔ IsNum v x := by
  unfold IsNum
  cases v <;> simp [realVal, eq_comm]

theorem read_iff (sec sub : Cfg.Dict) (h1 : (sec.map Prod.fst).Nodup) (h2 : (sub.map Prod.fst).Nodup) (n : Nat) (K : ContSet) (b : Bool) :
    contRead (contDict sec sub) n = some (K, b) ↔ K.nFit = n ∧ MeansCont sec sub K b := by
  have e := fun k v h => contDict_val sec sub h1 h2 k v h
  unfold contRead
  rw [e "nwr" (.int 501) rfl, e "wmin" (.int (-15)) rfl, e "wmax" (.int 15) rfl, e "bw" (.num (1 / 100)) rfl, e "mesh_type" (.str "tan") rfl, e "cut" (.num (4 / 100)) rfl,
    e "force_preblur" (.bool false) rfl, e "do_cont" (.bool true) rfl]
  simp only [Option.bind_some]
  constructor
  · intro h
    split at h
    · rename_i nwr wmin wmax bw mesh cut force doCont e1 e2 e3 e4 e5 e6 e7 e8
      split_ifs at h with hn
      have hn' : ((nwr.toNat : Nat) : Int) = nwr := Int.toNat_of_nonneg (by omega)
      split at h
      · cases h
        exact ⟨rfl, ⟨by rw [hn']; exact Option.some.inj e1, (realVal_iff _ _).1 e2, (realVal_iff _ _).1 e3, (realVal_iff _ _).1 e4, Option.some.inj e5,
          Or.inl ⟨Option.some.inj e6, rfl⟩, Option.some.inj e7, Option.some.inj e8⟩⟩
      · rw [Option.map_eq_some_iff] at h
        obtain ⟨c, hc, h⟩ := h
        cases h
        exact ⟨rfl, ⟨by rw [hn']; exact Option.some.inj e1, (realVal_iff _ _).1 e2, (realVal_iff _ _).1 e3, (realVal_iff _ _).1 e4, Option.some.inj e5,
          Or.inr ⟨c, by rw [Option.some.inj e6]; exact (realVal_iff _ _).1 hc, rfl⟩, Option.some.inj e7, Option.some.inj e8⟩⟩
    · cases h
  · rintro ⟨hn, hm⟩
    obtain ⟨nFit, nwr, wmin, wmax, bw, mesh, cut, force⟩ := K
    subst hn
    obtain ⟨m1, m2, m3, m4, m5, m6, m7, m8⟩ := hm
    simp only at m1 m2 m3 m4 m5 m6 m7 m8
    rw [m1, (realVal_iff _ _).2 m2, (realVal_iff _ _).2 m3, (realVal_iff _ _).2 m4, m5, m7, m8]
    simp only
    rw [if_neg (by omega)]
    rcases m6 with ⟨m6, rfl⟩ | ⟨c, m6, rfl⟩
    · rw [m6]
      simp
    · have hc := (realVal_iff _ _).2 m6
      split
      · rename_i h
        rw [h] at hc
        cases hc
      · rw [hc]
        simp

theorem sub_iff (sec : Cfg.Dict) (name : String) (h1 : (sec.map Prod.fst).Nodup) (h2 : ∀ d, sec.lookup name = some (.dict d) → (d.map Prod.fst).Nodup)
    (y : Option (ContSet × Bool)) : subOf sec name = some y ↔ MeansSub sec name y := by
  unfold subOf MeansSub
  rcases hl : sec.lookup name with _ | v
  · constructor
    · intro h
      cases h
      exact Or.inl ⟨rfl, rfl⟩
    · rintro (⟨-, rfl⟩ | ⟨_, _, _, h, _⟩)
      · rfl
      · cases h
  · cases v with
    | dict sub =>
      have h2' := h2 sub hl
      simp only [free_iff]
      rw [contDict_val sec sub h1 h2' "n_fit" (.int 20) rfl]
      constructor
      · intro h
        right
        split_ifs at h with hf
        split at h
        · rename_i n hn
          split_ifs at h with hneg
          rw [Option.map_eq_some_iff] at h
          obtain ⟨⟨K, b⟩, h, rfl⟩ := h
          obtain ⟨g1, g2⟩ := (read_iff sec sub h1 h2' _ K b).1 h
          exact ⟨sub, K, b, rfl, rfl, hf, by rw [g1, Int.toNat_of_nonneg (by omega)]; exact Option.some.inj hn, g2⟩
        · cases h
      · rintro (⟨h, -⟩ | ⟨sub', K, b, h, rfl, hf, hn, hm⟩)
        · cases h
        · cases h
          rw [if_pos hf, hn]
          simp only
          rw [if_neg (by omega), (read_iff sec sub h1 h2' _ K b).2 ⟨by simp, hm⟩]
          rfl
    | _ => simp

theorem conts_plan_iff (conf : Cfg.CfgFile) (h1 : ∀ s e, conf.lookup s = some (some e) → (e.map Prod.fst).Nodup)
    (h2 : ∀ s e k d, conf.lookup s = some (some e) → e.lookup k = some (.dict d) → (d.map Prod.fst).Nodup) (C : ContPlan) :
    contsOf conf = some C ↔ MeansConts conf C := by
  have hcond : ∀ y, condOf conf = some y ↔ (conf.lookup "optics" = none ∧ y = none) ∨ ∃ sec, conf.lookup "optics" = some (some sec) ∧
      ((sec.lookup "max_ent" = none ∧ y = none) ∨ ∃ sub K b, sec.lookup "max_ent" = some (.dict sub) ∧ (∀ k ∈ taken, sub.lookup k = none) ∧ MeansCont [] sub K b ∧
      ((contVal [] sub "n_fit" (.int 20) = .int (-1) ∧ K.nFit = 0 ∧ y = some (K, true)) ∨
        (contVal [] sub "n_fit" (.int 20) = .int K.nFit ∧ y = some (K, false)))) := by
    intro y
    unfold condOf
    rcases hl : conf.lookup "optics" with _ | _ | sec
    · constructor
      · intro h
        cases h
        exact Or.inl ⟨rfl, rfl⟩
      · rintro (⟨-, rfl⟩ | ⟨_, h, _⟩)
        · rfl
        · cases h
    · simp
    · simp only [reduceCtorEq, false_and, Option.some.injEq, exists_eq_left', false_or]
      rcases hs : sec.lookup "max_ent" with _ | v
      · constructor
        · intro h
          cases h
          exact Or.inl ⟨rfl, rfl⟩
        · rintro (⟨-, rfl⟩ | ⟨_, _, _, h, _⟩)
          · rfl
          · cases h
      · cases v with
        | dict sub =>
          have hnd := h2 _ _ _ _ hl hs
          have hswap : ∀ k, contVal sub [] k = contVal [] sub k := by
            intro k
            funext d
            simp [contVal]
          have hmc : ∀ K b, MeansCont sub [] K b ↔ MeansCont [] sub K b := by
            intro K b
            constructor <;> rintro ⟨m1, m2, m3, m4, m5, m6, m7, m8⟩
            · rw [hswap] at m1 m2 m3 m4 m5 m6 m7 m8
              exact ⟨m1, m2, m3, m4, m5, m6, m7, m8⟩
            · rw [← hswap] at m1 m2 m3 m4 m5 m6 m7 m8
              exact ⟨m1, m2, m3, m4, m5, m6, m7, m8⟩
          have hread : ∀ n K b, contRead (contDict sub []) n = some (K, b) ↔ K.nFit = n ∧ MeansCont [] sub K b := by
            intro n K b
            rw [read_iff sub [] hnd (by simp), hmc]
          simp only [free_iff, reduceCtorEq, false_and, false_or, Option.some.injEq, Cfg.Val.dict.injEq]
          rw [contDict_val sub [] hnd (by simp) "n_fit" (.int 20) rfl, hswap]
          constructor
          · intro h
            split_ifs at h with hf
            split at h
            · rename_i n hn
              have hn' := Option.some.inj hn
              split_ifs at h with c1 c2
              · rw [Option.map_eq_some_iff] at h
                obtain ⟨⟨K, b⟩, h, rfl⟩ := h
                obtain ⟨g1, g2⟩ := (hread _ K b).1 h
                exact ⟨sub, K, b, rfl, hf, g2, Or.inl ⟨by rw [hn', c1], g1, rfl⟩⟩
              · rw [Option.map_eq_some_iff] at h
                obtain ⟨⟨K, b⟩, h, rfl⟩ := h
                obtain ⟨g1, g2⟩ := (hread _ K b).1 h
                exact ⟨sub, K, b, rfl, hf, g2, Or.inr ⟨by rw [g1, Int.toNat_of_nonneg (by omega)]; exact hn', rfl⟩⟩
            · cases h
          · rintro ⟨sub', K, b, rfl, hf, hm, h⟩
            rw [if_pos hf]
            rcases h with ⟨hn, h0, rfl⟩ | ⟨hn, rfl⟩
            · rw [hn]
              simp only [if_true]
              rw [(hread 0 K b).2 ⟨h0, hm⟩]
              rfl
            · rw [hn]
              simp only
              rw [if_neg (by omega), if_neg (by omega), (hread _ K b).2 ⟨by simp, hm⟩]
              rfl
        | _ => simp
  have hmax : ∀ y, maxEntOf conf = some y ↔ (conf.lookup "max_ent" = none ∧ y = none) ∨ ∃ sec M, conf.lookup "max_ent" = some (some sec) ∧ y = some M ∧
    (∀ k ∈ "loc" :: taken, sec.lookup k = none) ∧ MeansSub sec "s_dga" M.s ∧ MeansSub sec "g_dga" M.g ∧ MeansSub sec "chi_d" M.d ∧ MeansSub sec "chi_m" M.m := by
    intro y
    unfold maxEntOf
    rcases hl : conf.lookup "max_ent" with _ | _ | sec
    · constructor
      · intro h
        cases h
        exact Or.inl ⟨rfl, rfl⟩
      · rintro (⟨-, rfl⟩ | ⟨_, _, h, _⟩)
        · rfl
        · cases h
    · simp
    · have hs := fun name => sub_iff sec name (h1 _ _ hl) (fun d hd => h2 _ _ _ _ hl hd)
      simp only [free_iff, reduceCtorEq, false_and, false_or, Option.some.injEq]
      constructor
      · intro h
        split_ifs at h with hf
        split at h
        · rename_i s g d m e1 e2 e3 e4
          exact ⟨sec, ⟨s, g, d, m⟩, rfl, (Option.some.inj h).symm, hf, (hs _ _).1 e1, (hs _ _).1 e2, (hs _ _).1 e3, (hs _ _).1 e4⟩
        · cases h
      · rintro ⟨sec', M, rfl, rfl, hf, g1, g2, g3, g4⟩
        rw [if_pos hf, (hs _ _).2 g1, (hs _ _).2 g2, (hs _ _).2 g3, (hs _ _).2 g4]
  unfold contsOf
  constructor
  · intro h
    split at h
    · rename_i c m e1 e2
      cases h
      exact ⟨(hcond c).1 e1, (hmax m).1 e2⟩
    · cases h
  · rintro ⟨g1, g2⟩
    rw [(hcond _).2 g1, (hmax _).2 g2]

theorem lookup_dropCont (conf : Cfg.CfgFile) (s : String) :
    (dropCont conf).lookup s = (conf.lookup s).map fun d => if s = "optics" then d.map fun d => d.filter fun e => e.1 != "max_ent" else d := by
  unfold dropCont
  induction conf with
  | nil => rfl
  | cons p conf ih =>
    obtain ⟨a, d⟩ := p
    rw [List.map_cons, Cfg.lookup_cons_if, Cfg.lookup_cons_if, ih]
    by_cases h : s = a
    · subst h
      rw [if_pos rfl, if_pos rfl]
      rfl
    · rw [if_neg h, if_neg h]

theorem dropCont_wf (conf : Cfg.CfgFile) (hwf : ∀ s e, conf.lookup s = some (some e) → (e.map Prod.fst).Nodup) (s : String) (e : Cfg.Dict)
    (h : (dropCont conf).lookup s = some (some e)) : (e.map Prod.fst).Nodup := by
  rw [lookup_dropCont, Option.map_eq_some_iff] at h
  obtain ⟨d, hd, h⟩ := h
  split_ifs at h
  · rw [Option.map_eq_some_iff] at h
    obtain ⟨d', rfl, rfl⟩ := h
    exact List.Sublist.nodup (List.Sublist.map _ List.filter_sublist) (hwf s d' hd)
  · subst h
    exact hwf s e hd

/-- **C144 (a).** The complete program with continuations started with a configuration file returns a result exactly if the file is accepted, and the run of C142
    with the input files, settings, plan, fits and continuations the file means returns it. -/
theorem program_conts_iff (fs : Inp.Fs) (wan : String → Option (List Str)) (conf : Cfg.CfgFile) (ranks : Nat) (fit : Fitter) (T : Tools) (X : ∀ nx ny nz, Chance nx ny nz)
    (hwf : ∀ s e, conf.lookup s = some (some e) → (e.map Prod.fst).Nodup)
    (hsub : ∀ s e k d, conf.lookup s = some (some e) → e.lookup k = some (.dict d) → (d.map Prod.fst).Nodup) (hkeys : (conf.map Prod.fst).Nodup) (res : ContsResult) :
    programConts fs wan conf ranks fit T X = .ok res ↔
      ∃ (ty path f1 : String) (f2 : Option String) (S : Settings) (P : Plan) (saveFq : Bool) (F : Option (Nat × Nat)) (C : ContPlan) (_ : NeZero S.nx) (_ : NeZero S.ny)
        (_ : NeZero S.nz) (r : OneOut S.nx S.ny S.nz × Option PolyFits × ContsOut), Means wan conf ranks ty path f1 f2 S ∧ MeansPlan (dropCont conf) P ∧
        optVal conf ["dga", "output"] "save_fq" (.bool false) = .bool saveFq ∧ MeansFits conf F ∧ MeansConts conf C ∧
        mainConts fs ty path f1 f2 S P saveFq F fit C T (X S.nx S.ny S.nz) = .ok r ∧ res = ⟨(S.nx, S.ny, S.nz), r⟩ := by
  have hsec := sections_wf conf hwf hkeys
  have hsec' := sections_wf (dropCont conf) (dropCont_wf conf hwf) (by
    have : (dropCont conf).map Prod.fst = conf.map Prod.fst := by
      unfold dropCont
      rw [List.map_map]
      rfl
    rw [this]
    exact hkeys)
  have key := setup_iff wan conf ranks hwf hkeys
  have hfq : ∀ b, saveFqOf conf = some b ↔ optVal conf ["dga", "output"] "save_fq" (.bool false) = .bool b := by
    intro b
    exact boolAttr_iff _ _ _ (attr_eq conf hsec "save_fq" "output" (.bool false) (by simp [Cfg.options])) b
  unfold programConts
  constructor
  · intro h
    split at h
    · cases h
    · rename_i s hs
      split at h
      swap
      · cases h
      · rename_i P b F C hP hb hF hC
        unfold mainContsOf at h
        split_ifs at h with hz
        split at h
        · cases h
        · rename_i r hr
          cases h
          exact ⟨s.ty, s.path, s.f1, s.f2, s.S, P, b, F, C, ⟨hz.1⟩, ⟨hz.2.1⟩, ⟨hz.2.2⟩, r, (key s).1 hs, (plan_iff (dropCont conf) hsec' P).1 hP, (hfq b).1 hb,
            (fits_iff conf hsec F).1 hF, (conts_plan_iff conf hwf hsub C).1 hC, hr, rfl⟩
  · rintro ⟨ty, path, f1, f2, S, P, b, F, C, z1, z2, z3, r, hm, hP, hb, hF, hC, hr, rfl⟩
    rw [(key ⟨ty, path, f1, f2, S⟩).2 hm, (plan_iff (dropCont conf) hsec' P).2 hP, (hfq b).2 hb, (fits_iff conf hsec F).2 hF, (conts_plan_iff conf hwf hsub C).2 hC]
    simp only
    unfold mainContsOf
    rw [dif_pos ⟨NeZero.ne S.nx, NeZero.ne S.ny, NeZero.ne S.nz⟩]
    simp only [hr]

/-- **C144 (b).** A section `max_ent` or `optics` without entries stops the program: there is no result, although the calculation itself does not need them. -/
theorem program_empty (fs : Inp.Fs) (wan : String → Option (List Str)) (conf : Cfg.CfgFile) (ranks : Nat) (fit : Fitter) (T : Tools) (X : ∀ nx ny nz, Chance nx ny nz)
    (h : conf.lookup "max_ent" = some none ∨ conf.lookup "optics" = some none) (res : ContsResult) : programConts fs wan conf ranks fit T X ≠ .ok res := by
  intro hr
  have hc : contsOf conf = none := by
    unfold contsOf
    rcases h with h | h
    · rw [show maxEntOf conf = none by simp [maxEntOf, h]]
      split <;> simp_all
    · rw [show condOf conf = none by simp [condOf, h]]
  unfold programConts at hr
  rw [hc] at hr
  split at hr
  · cases hr
  · split at hr
    · simp_all
    · cases hr

/-- **C144 (c).** A subsection without settings of its own in a section without them is a continuation from 20 frequencies on the `tan` mesh of 501 points from -15 to
    15 – for the susceptibilities from 0 to 15 –, with blur width 0.01. -/
theorem sub_defaults (sec : Cfg.Dict) (name : String) (sub : Cfg.Dict) (hs : sec.lookup name = some (.dict sub)) (hf : ∀ k ∈ taken, sub.lookup k = none)
    (hno : ∀ k ∈ ["n_fit", "nwr", "wmin", "wmax", "bw", "mesh_type", "cut", "force_preblur", "do_cont"], sec.lookup k = none ∧ sub.lookup k = none)
    (y : Option (ContSet × Bool)) : MeansSub sec name y ↔ y = some (⟨20, 501, -15, 15, 1 / 100, "tan", some (1 / 25), false⟩, true) := by
  have hv : ∀ k ∈ ["n_fit", "nwr", "wmin", "wmax", "bw", "mesh_type", "cut", "force_preblur", "do_cont"], ∀ d, contVal sec sub k d = d := by
    intro k hk d
    obtain ⟨h1, h2⟩ := hno k hk
    unfold contVal
    rw [h1, h2]
    rfl
  simp only [List.forall_mem_cons, List.not_mem_nil, false_imp_iff, implies_true, and_true] at hv
  obtain ⟨v1, v2, v3, v4, v5, v6, v7, v8, v9⟩ := hv
  have num : ∀ (q : Rat) x, IsNum (.num q) x ↔ x = q := by
    intro q x
    simp [IsNum]
  have int : ∀ (i : Int) x, IsNum (.int i) x ↔ x = i := by
    intro i x
    simp [IsNum]
  constructor
  · rintro (⟨h, -⟩ | ⟨sub', K, b, h, rfl, -, hn, ⟨m1, m2, m3, m4, m5, m6, m7, m8⟩⟩)
    · rw [hs] at h
      cases h
    · rw [hs] at h
      cases h
      obtain ⟨nFit, nwr, wmin, wmax, bw, mesh, cut, force⟩ := K
      simp only [v1, v2, v3, v4, v5, v6, v7, v8, v9, num, int] at hn m1 m2 m3 m4 m5 m6 m7 m8
      cases m5
      cases m7
      cases m8
      have e1 : nFit = 20 := by
        have := Cfg.Val.int.inj hn
        omega
      have e2 : nwr = 501 := by
        have := Cfg.Val.int.inj m1
        omega
      subst e1 e2 m2 m3 m4
      rcases m6 with ⟨h, -⟩ | ⟨c, rfl, rfl⟩
      · cases h
      · norm_num
  · rintro rfl
    right
    refine ⟨sub, _, _, hs, rfl, hf, by rw [v1]; rfl, ⟨by rw [v2]; rfl, ?_, ?_, ?_, (by rw [v6]), Or.inr ⟨1 / 25, ?_, rfl⟩, (by rw [v8]), (by rw [v9])⟩⟩
    · rw [v3, int]
      norm_num
    · rw [v4, int]
      norm_num
    · rw [v5, num]
      norm_num
    · rw [v7, num]
      norm_num

/-- **C144 (d).** No run whose self-energy is to be continued on a mesh from `-wmax` to `wmax` with an even number of points, ten or more, ends: the optical conductivity
    on the real axis is asked for a window that starts before the mesh. -/
theorem conts_even {fs : Inp.Fs} {ty path f1 : String} {f2 : Option String} {S : Settings} [NeZero S.nx] [NeZero S.ny] [NeZero S.nz] (I : Files fs ty path f1 f2 S)
    (P : Plan) (saveFq : Bool) (F : Option (Nat × Nat)) (fit : Fitter) (C : ContPlan) (T : Tools) (X : Chance S.nx S.ny S.nz) (M : MaxEntPlan) (hM : C.maxEnt = some M)
    (K : ContSet) (hK : M.s = some (K, true)) (hsym : K.wmin = -K.wmax) (hpos : 0 < K.wmax) (n : Nat) (hn : 5 ≤ n) (heven : K.nwr = 2 * n)
    (hkind : K.mesh ∈ ["hyperbolic", "linear", "tan"]) (r : OneOut S.nx S.ny S.nz × Option PolyFits × ContsOut) :
    mainConts fs ty path f1 f2 S P saveFq F fit C T X ≠ .ok r := by
  intro hr
  obtain ⟨x, fits, c⟩ := r
  obtain ⟨hp, hc⟩ := (conts_split I P saveFq F fit C T X x fits c).1 hr
  have hone := ((poly_split I P saveFq F fit X x fits).1 hp).1
  obtain ⟨a, ha, o, mu0, -, -, hcalc⟩ := one_parts I P saveFq X x hone
  have hnone := @maxEnt_even fs ty path f1 f2 (withAs S a) _ _ _ (I.enlarge a ha) x.main hcalc T X.newton M K hK hsym hpos n hn heven (Or.inl hkind)
  unfold contsFrom at hc
  rw [Option.bind_eq_some_iff] at hc
  obtain ⟨c1, -, hc⟩ := hc
  rw [hM] at hc
  simp only [show maxEntMain S T X.newton I.d x.main M = none from hnone] at hc
  cases hc

/-! ### The input of Whole/ContsEx.lean -/

namespace ContEx

/-- the continuations asked for by the configuration file below -/
def confConts : ContPlan := ⟨some ({ K with nFit := 0 }, true), some ⟨some (K, true), some (K, true), some (K, true), some (K, true)⟩⟩

/-- the run with an asymptotic range of 24 frequencies returns with all continuations -/
theorem conf_returns : ∃ x c, mainConts fs "test" "in/" "data.npy" none (withAs S 24) plan true none (fun _ _ _ _ => 0) confConts T X = .ok (x, none, c) ∧
    c.cond.isSome ∧ ∃ y, c.maxEnt = some y ∧ y.s.isSome ∧ y.g.isSome ∧ y.d.isSome ∧ y.m.isSome := by
  obtain ⟨out, h⟩ := returns
  have hr : mainRun fs "test" "in/" "data.npy" none (withAs S 24) = .ok out := by
    rw [(theFiles.enlarge 24 le_rfl).mainRun_eq]
    rw [theFiles.mainRun_eq] at h
    exact h
  obtain ⟨x, h1, h2, -, -, -, h6⟩ := one_returns (theFiles.enlarge 24 le_rfl) (by decide) plan true X 24 ⟨1, 1, 2, 22, 1⟩ ranges (fun _ => rfl) (fun _ => by decide)
    (fun _ => by decide) out hr 1 (mu_found _)
  obtain ⟨fits, h3⟩ := (poly_iff (theFiles.enlarge 24 le_rfl) plan true none (fun _ _ _ _ => 0) X x).2 ⟨h1, fun h => absurd rfl h⟩
  obtain rfl : fits = none := by
    rcases poly_values (theFiles.enlarge 24 le_rfl) _ _ _ _ _ _ _ h3 with ⟨-, h⟩ | ⟨n, o, a, op, mu, t, h, -⟩
    · exact h
    · cases h
  have hwne : ∀ w, MeshIs K false w → w ≠ [] := by
    intro w hw
    rw [← Option.some.inj (mesh_s.symm.trans hw)]
    simp [Optics.oddGrid]
  obtain ⟨c, c1, c2, c3⟩ := conts_returns (theFiles.enlarge 24 le_rfl) (by decide) plan true none (fun _ _ _ _ => 0) confConts T X x none h3
    (by
      intro K' m1 O hK hO
      cases hK
      refine ⟨fun _ => ?_, _, mesh_b, fun _ _ _ => rfl⟩
      have := (optics_sizes (theFiles.enlarge 24 le_rfl) (by decide) plan true X x h1 O hO).2.2
      obtain ⟨v, hv⟩ : ∃ v, O.vertex = some v := by
        obtain ⟨g1, -⟩ := (one_iff (theFiles.enlarge 24 le_rfl) plan true X x).1 h1
        obtain ⟨a, o, -, -, -, -, q⟩ := (all_iff (theFiles.enlarge 24 le_rfl) plan.forAll X x.all).1 g1
        have hO' : x.all.optics = some O := hO
        rcases q with ⟨e, -⟩ | ⟨-, -, -, mu, bub, F, V, e, -⟩ | ⟨-, -, e, -⟩
        · cases e
        · rw [e] at hO'
          cases hO'
          exact ⟨_, rfl⟩
        · cases e
      exact (this v hv).2)
    (by
      intro M hM
      cases hM
      have hsK : ∀ K' b, some (K, true) = some (K', b) → K' = K := by
        intro K' b h
        cases h
        rfl
      refine ⟨by decide, ⟨1, mu_found _⟩, ?_, ⟨?_, ?_⟩, ?_, fun _ => rfl, Or.inr ?_⟩
      · obtain ⟨mp, hmp, -⟩ := irrk_representative S.nx S.ny S.nz S.syms theFiles.syms
        have := ex_irr
        unfold Cfg.irrPoints at this
        rw [show Bz.fbz2irrk 4 4 1 square = some mp from hmp] at this
        refine ⟨mp, hmp, ?_⟩
        simp only [Option.map_some, Option.getD_some, Cfg.nIrr, irrkInd, List.length_map] at this
        rw [this]
        decide
      · rintro K' b (hK | hK) <;> cases hK <;> exact ⟨_, mesh_s⟩
      · rintro K' b (hK | hK) <;> cases hK <;> exact ⟨_, mesh_b⟩
      · intro K' hK
        cases hK
        exact ⟨2, _, by norm_num, ⟨by simp, fun i j _ h _ => by exact_mod_cast h⟩, mesh_s'⟩
      · rintro name K' w (hK | hK) hw im data model <;> cases hK <;> exact solved _ _ _ _ _ (hwne w hw))
  obtain ⟨y, hy, s1, s2, s3, s4⟩ := c3 _ rfl
  exact ⟨x, c, c1, c2.2 ⟨h6, rfl⟩, y, hy, s1.2 ⟨_, rfl⟩, s2.2 ⟨_, rfl⟩, s3.2 ⟨_, rfl⟩, s4.2 ⟨_, rfl⟩⟩

/-- the configuration: the mesh is set in the section `max_ent`, the number of frequencies in its subsections; everything again in the optics section -/
def conf : Cfg.CfgFile :=
  [("lattice", some [("type", .str "t_tp_tpp"), ("hr_input", .list [.int 0, .int 0, .int 0]), ("nk", .list [.int 4, .int 4, .int 1]),
    ("symmetries", .str "two_dimensional_square")]),
   ("dmft_input", some [("type", .str "test"), ("input_path", .str "in/"), ("fname_1p", .str "data.npy"), ("fname_2p", .null), ("do_sym_v_vp", .bool false)]),
   ("box_sizes", some [("niv_core", .int 2), ("niv_shell", .int 18), ("niv_asympt", .int 24)]), ("dga", some [("lambda_corr", .str "none")]),
   ("pairing", some [("do_eliash", .bool true), ("do_pairing_vertex", .bool true), ("k_sym", .str "d-wave"), ("eps", .num (1 / 100)), ("max_count", .int 50)]),
   ("optics", some [("do_bubble", .bool true), ("do_vertex", .bool true), ("max_ent", .dict [("n_fit", .int (-1)), ("nwr", .int 5), ("wmin", .int (-2)), ("wmax", .int 2),
     ("bw", .int 0), ("mesh_type", .str "linear"), ("cut", .null)])]),
   ("output", some [("save_fq", .bool true)]),
   ("max_ent", some [("nwr", .int 5), ("wmin", .int (-2)), ("wmax", .int 2), ("n_fit", .int 7), ("bw", .int 0), ("mesh_type", .str "linear"), ("cut", .null),
     ("s_dga", .dict [("n_fit", .int 2)]), ("g_dga", .dict [("n_fit", .int 2)]), ("chi_d", .dict [("n_fit", .int 2)]), ("chi_m", .dict [("n_fit", .int 2)])])]

theorem conf_conts : MeansConts conf confConts := by
  have hm : ∀ sec sub b, contVal sec sub "nwr" (.int 501) = .int 5 → contVal sec sub "wmin" (.int (-15)) = .int (-2) → contVal sec sub "wmax" (.int 15) = .int 2 →
      contVal sec sub "bw" (.num (1 / 100)) = .int 0 → contVal sec sub "mesh_type" (.str "tan") = .str "linear" → contVal sec sub "cut" (.num (4 / 100)) = .null →
      contVal sec sub "force_preblur" (.bool false) = .bool false → contVal sec sub "do_cont" (.bool true) = .bool b → ∀ n, MeansCont sec sub { K with nFit := n } b := by
    intro sec sub b h1 h2 h3 h4 h5 h6 h7 h8 n
    exact ⟨h1, Or.inl ⟨_, h2, by norm_num [K]⟩, Or.inl ⟨_, h3, by norm_num [K]⟩, Or.inl ⟨_, h4, by norm_num [K]⟩, h5, Or.inl ⟨h6, rfl⟩, h7, h8⟩
  refine ⟨Or.inr ⟨_, rfl, Or.inr ⟨_, { K with nFit := 0 }, true, rfl, by decide, hm _ _ _ rfl rfl rfl rfl rfl rfl rfl rfl 0, Or.inl ⟨rfl, rfl, rfl⟩⟩⟩,
    Or.inr ⟨_, _, rfl, rfl, by decide, ?_, ?_, ?_, ?_⟩⟩
  all_goals exact Or.inr ⟨_, K, true, rfl, rfl, by decide, rfl, hm _ _ _ rfl rfl rfl rfl rfl rfl rfl rfl 2⟩

theorem mem_of_lookup {β : Type} (l : List (String × β)) (k : String) (v : β) (h : l.lookup k = some v) : (k, v) ∈ l := by
  induction l with
  | nil => cases h
  | cons p l ih =>
    obtain ⟨a, b⟩ := p
    rw [Cfg.lookup_cons_if] at h
    split at h
    · rename_i e
      cases h
      subst e
      exact List.mem_cons_self
    · exact List.mem_cons_of_mem _ (ih h)

/-- C144 (a): started with this configuration file the program returns with all continuations -/
example : ∃ res, programConts fs (fun _ => none) conf 2 (fun _ _ _ _ => 0) T (fun _ _ _ => ⟨fun _ _ => some 1, fun _ _ _ _ _ => 1, fun _ _ _ _ _ => 1, fun _ _ _ => 1⟩) = .ok res ∧
    res.2.2.2.cond.isSome ∧ ∃ y, res.2.2.2.maxEnt = some y ∧ y.s.isSome ∧ y.g.isSome ∧ y.d.isSome ∧ y.m.isSome := by
  obtain ⟨x, c, h, h1, h2⟩ := conf_returns
  refine ⟨⟨(4, 4, 1), (x, none, c)⟩, (program_conts_iff _ _ _ _ _ _ _ ?_ ?_ (by simp [conf]) _).2
    ⟨_, _, _, _, withAs S 24, plan, true, none, confConts, inferInstance, inferInstance, inferInstance, (x, none, c), ?_, ?_, rfl, ⟨rfl, fun n o h => by cases h⟩,
      conf_conts, h, rfl⟩, h1, h2⟩
  · refine Pipe.Ex4.wf _ ?_
    intro p hp e he
    simp only [conf, List.mem_cons, List.not_mem_nil, or_false] at hp
    rcases hp with rfl | rfl | rfl | rfl | rfl | rfl | rfl | rfl <;> cases he <;> simp
  · intro s e k d he hd
    have h1 := mem_of_lookup _ _ _ he
    have h2 := mem_of_lookup _ _ _ hd
    simp only [conf, List.mem_cons, List.not_mem_nil, or_false, Prod.mk.injEq, Option.some.injEq] at h1
    rcases h1 with ⟨-, rfl⟩ | ⟨-, rfl⟩ | ⟨-, rfl⟩ | ⟨-, rfl⟩ | ⟨-, rfl⟩ | ⟨-, rfl⟩ | ⟨-, rfl⟩ | ⟨-, rfl⟩ <;>
      simp only [List.mem_cons, List.not_mem_nil, or_false, Prod.mk.injEq, reduceCtorEq, and_false, Cfg.Val.dict.injEq, or_self, false_or] at h2
    · rw [h2.2]
      simp
    · rcases h2 with ⟨-, rfl⟩ | ⟨-, rfl⟩ | ⟨-, rfl⟩ | ⟨-, rfl⟩ <;> simp
  · exact ⟨⟨_, .hop 0 0 0, rfl, ⟨rfl, rfl, .square, .hop _ _ _ _ _ _ rfl rfl rfl⟩, by simp [latticeHr, withAs, S]⟩,
      by simp [conf, Cfg.lookup_cons_if], rfl, by rw [show (withAs S 24).syms = square from rfl]; exact ex_irr.ge.trans' (by decide), rfl, rfl, rfl, rfl, rfl,
      rfl, rfl, rfl, rfl, rfl⟩
  · exact ⟨rfl, rfl, rfl, rfl, rfl, Or.inr ⟨1 / 100, rfl, by simp [plan, Pairing.Ex4.E]⟩, rfl, rfl, rfl, by simp [plan, dropCont, conf], rfl, rfl, rfl, rfl, rfl, rfl, rfl, rfl, rfl,
      rfl⟩

/-- (b): the same file with `max_ent:` left empty -/
example (T : Tools) (X : ∀ nx ny nz, Chance nx ny nz) (res : ContsResult) : programConts fs (fun _ => none) (conf.filter (fun p => p.1 != "max_ent") ++ [("max_ent", none)]) 2
    (fun _ _ _ _ => 0) T X ≠ .ok res :=
  program_empty _ _ _ _ _ _ _ (Or.inl (by simp [conf, Cfg.lookup_cons_if])) _

/-- (c): `max_ent: {s_dga: {}}` -/
example : MeansSub [("s_dga", .dict [])] "s_dga" (some (⟨20, 501, -15, 15, 1 / 100, "tan", some (1 / 25), false⟩, true)) :=
  (sub_defaults [("s_dga", .dict [])] "s_dga" [] rfl (fun _ _ => rfl) (by decide) _).2 rfl

/-- (d): with `nwr: 500` the run does not end -/
example (r : OneOut S.nx S.ny S.nz × Option PolyFits × ContsOut) :
    mainConts fs "test" "in/" "data.npy" none S plan true none (fun _ _ _ _ => 0) ⟨none, some ⟨some (Keven, true), none, none, none⟩⟩ T X ≠ .ok r :=
  conts_even theFiles plan true none _ _ T X _ rfl Keven rfl rfl (by norm_num [Keven]) 250 (by norm_num) rfl (by simp [Keven]) r

end ContEx

end DGA.Whole
