/-
  C136: the complete program from the configuration file on: the sections `pairing` and `optics`.
-/
import Verif.Whole.Props
import Verif.Pipeline.Program

noncomputable section

namespace DGA.Whole

open DGA.Bz DGA.Wan DGA.WanIo DGA.Pipe DGA.Pairing DGA.Report
open DGA.RankFiles (Str)

/-! ### Model -/

/-- config.py:433-444 `OpticsConfig.__init__`: defaults, update with the section `optics` -/
def newOptics (sec : Option Cfg.Dict) : Cfg.Dict :=
  let d0 : Cfg.Dict := [("output_path", .null), ("do_bubble", .bool false), ("do_vertex", .bool false), ("der_a", .int 0), ("der_b", .int 0),
    ("niw_cond", .int (-1)), ("niw_bubble", .int (-1)), ("niw_vert", .int (-1)), ("niv_bubble", .int (-1)), ("niv_vert", .int (-1))]
  match sec with | some e => Cfg.update d0 e | none => d0

/-- an integer option (language construct; values of another type are outside the model) -/
def intAt (d : Cfg.Dict) (k : String) : Option Int := match d.lookup k with | some (.int i) => some i | _ => none

/-- a count: a non-negative integer (a negative `max_count` or `n_eig` is outside the model) -/
def natAt (d : Cfg.Dict) (k : String) : Option Nat := match d.lookup k with | some (.int i) => if 0 ≤ i then some i.toNat else none | _ => none

/-- a real number: integers and decimals -/
def realAt (d : Cfg.Dict) (k : String) : Option ℝ := match d.lookup k with | some (.int i) => some i | some (.num q) => some q | _ => none

/-- a direction: 0, 1, 2 (negative indices are outside the model) -/
def dirAt (d : Cfg.Dict) (k : String) : Option (Fin 3) :=
  match d.lookup k with | some (.int i) => if i = 0 then some 0 else if i = 1 then some 1 else if i = 2 then some 2 else none | _ => none

/-- config.py:384-401, 433-444, 579-589, dga_main.py:287, 320-349: what the sections `pairing` and `optics` ask for.  `linear_eliashberg` is called without
    `shift_mat`, whose default is `True` (eliashberg_equation.py:159-160).  An optics section with a continuation (`max_ent`, dga_main.py:363) is
    outside the model. -/
def planOf (conf : Cfg.CfgFile) : Option Plan :=
  let e := Cfg.newEliash ((sections conf).lookup "pairing")
  let o := newOptics ((sections conf).lookup "optics")
  if (o.lookup "max_ent").isSome then none else do
  let pairing ← boolAttr e "do_pairing_vertex"
  let eliash ← boolAttr e "do_eliash"
  let kSym ← strAttr e "k_sym"
  let symSing ← boolAttr e "sym_sing"
  let symTrip ← boolAttr e "sym_trip"
  let eps ← realAt e "eps"
  let maxCount ← natAt e "max_count"
  let nEig ← natAt e "n_eig"
  let bubble ← boolAttr o "do_bubble"
  let vertex ← boolAttr o "do_vertex"
  let derA ← dirAt o "der_a"
  let derB ← dirAt o "der_b"
  let niwCond ← intAt o "niw_cond"
  let niwBubble ← intAt o "niw_bubble"
  let niwVert ← intAt o "niw_vert"
  let nivBubble ← intAt o "niv_bubble"
  let nivVert ← intAt o "niv_vert"
  return ⟨pairing, eliash, (conf.lookup "optics").isSome, bubble, vertex, ⟨kSym, symSing, symTrip, eps, maxCount, nEig, true⟩,
    ⟨niwCond, niwBubble, niwVert, nivBubble, nivVert⟩, derA, derB⟩

/-- the momentum grid and the results of a complete run on it -/
abbrev Result := Σ n : Nat × Nat × Nat, AllOut n.1 n.2.1 n.2.2

/-- the complete run for given settings; grids without points are rejected before (config.py:563-565) if there is a rank -/
def mainOf (fs : Inp.Fs) (s : Setup) (P : Plan) (X : ∀ nx ny nz, Chance nx ny nz) : Except String Result :=
  if h : s.S.nx ≠ 0 ∧ s.S.ny ≠ 0 ∧ s.S.nz ≠ 0 then
    haveI : NeZero s.S.nx := ⟨h.1⟩
    haveI : NeZero s.S.ny := ⟨h.2.1⟩
    haveI : NeZero s.S.nz := ⟨h.2.2⟩
    match mainAll fs s.ty s.path s.f1 s.f2 s.S P (X s.S.nx s.S.ny s.S.nz) with
    | .error e => .error e
    | .ok r => .ok ⟨(s.S.nx, s.S.ny, s.S.nz), r⟩
  else .error "outside"

/-- dga_main.py:41-360: the complete program from the configuration file on -/
def programAll (fs : Inp.Fs) (wan : String → Option (List Str)) (conf : Cfg.CfgFile) (ranks : Nat) (X : ∀ nx ny nz, Chance nx ny nz) :
    Except String Result :=
  match setupOf wan conf ranks with
  | .error e => .error e
  | .ok s =>
    match planOf conf with
    | none => .error "outside"
    | some P => mainOf fs s P X

/-! ### Specification -/

/-- the value of an option: that in the section, else the documented default -/
def secVal (conf : Cfg.CfgFile) (s k : String) (dflt : Cfg.Val) : Cfg.Val := (Cfg.entry (sections conf) s k).getD dflt

/-- a number in the file -/
def IsNum (v : Cfg.Val) (x : ℝ) : Prop := (∃ i : Int, v = .int i ∧ x = i) ∨ ∃ q : Rat, v = .num q ∧ x = q

/-- What the sections `pairing` and `optics` of a configuration file mean. -/
structure MeansPlan (conf : Cfg.CfgFile) (P : Plan) : Prop where
  pairing : secVal conf "pairing" "do_pairing_vertex" (.bool false) = .bool P.pairing
  eliash : secVal conf "pairing" "do_eliash" (.bool false) = .bool P.eliash
  kSym : secVal conf "pairing" "k_sym" (.str "random") = .str P.E.kSym
  symSing : secVal conf "pairing" "sym_sing" (.bool true) = .bool P.E.symSing
  symTrip : secVal conf "pairing" "sym_trip" (.bool true) = .bool P.E.symTrip
  eps : IsNum (secVal conf "pairing" "eps" (.num (1 / 1000000))) P.E.eps
  maxCount : secVal conf "pairing" "max_count" (.int 10000) = .int P.E.maxCount
  nEig : secVal conf "pairing" "n_eig" (.int 2) = .int P.E.nEig
  shift : P.E.shiftMat = true
  hasOptics : P.hasOptics = true ↔ "optics" ∈ conf.map Prod.fst
  noCont : Cfg.entry (sections conf) "optics" "max_ent" = none
  bubble : secVal conf "optics" "do_bubble" (.bool false) = .bool P.bubble
  vertex : secVal conf "optics" "do_vertex" (.bool false) = .bool P.vertex
  derA : secVal conf "optics" "der_a" (.int 0) = .int P.derA.val
  derB : secVal conf "optics" "der_b" (.int 0) = .int P.derB.val
  niwCond : secVal conf "optics" "niw_cond" (.int (-1)) = .int P.o.niwCond
  niwBubble : secVal conf "optics" "niw_bubble" (.int (-1)) = .int P.o.niwBubble
  niwVert : secVal conf "optics" "niw_vert" (.int (-1)) = .int P.o.niwVert
  nivBubble : secVal conf "optics" "niv_bubble" (.int (-1)) = .int P.o.nivBubble
  nivVert : secVal conf "optics" "niv_vert" (.int (-1)) = .int P.o.nivVert

/-! ### Theorems -/

theorem intAt_iff (d : Cfg.Dict) (k : String) (v : Cfg.Val) (h : d.lookup k = some v) (i : Int) : intAt d k = some i ↔ v = .int i := by
  unfold intAt
  rw [h]
  cases v <;> simp

theorem natAt_iff (d : Cfg.Dict) (k : String) (v : Cfg.Val) (h : d.lookup k = some v) (n : Nat) : natAt d k = some n ↔ v = .int n := by
  unfold natAt
  rw [h]
  cases v <;> simp
  omega

theorem realAt_iff (d : Cfg.Dict) (k : String) (v : Cfg.Val) (h : d.lookup k = some v) (x : ℝ) : realAt d k = some x ↔ IsNum v x := by
  unfold realAt IsNum
  rw [h]
  cases v <;> simp [eq_comm]

theorem dirAt_iff (d : Cfg.Dict) (k : String) (v : Cfg.Val) (h : d.lookup k = some v) (x : Fin 3) : dirAt d k = some x ↔ v = .int x.val := by
  unfold dirAt
  rw [h]
  cases v with
  | int i =>
    simp only [Cfg.Val.int.injEq]
    split_ifs with h0 h1 h2
    · subst h0; fin_cases x <;> simp
    · subst h1; fin_cases x <;> simp
    · subst h2; fin_cases x <;> simp
    · fin_cases x <;> simp <;> assumption
  | _ => simp

theorem pair_lookup (conf : Cfg.CfgFile) (hsec : Cfg.WellFormed (sections conf)) (k : String) (v : Cfg.Val)
    (hk : (k, v) ∈ [("do_pairing_vertex", Cfg.Val.bool false), ("do_eliash", .bool false), ("n_eig", .int 2),
      ("k_sym", .str "random"), ("sym_sing", .bool true), ("sym_trip", .bool true), ("eps", .num (1 / 1000000)),
      ("max_count", .int 10000)]) :
    (Cfg.newEliash ((sections conf).lookup "pairing")).lookup k = some (secVal conf "pairing" k v) := by
  have hn : k ≠ "gap0_sing" ∧ k ≠ "gap0_trip" := by
    simp only [List.mem_cons, Prod.mk.injEq, List.not_mem_nil, or_false] at hk
    rcases hk with ⟨rfl, rfl⟩ | ⟨rfl, rfl⟩ | ⟨rfl, rfl⟩ | ⟨rfl, rfl⟩ | ⟨rfl, rfl⟩ | ⟨rfl, rfl⟩ | ⟨rfl, rfl⟩ | ⟨rfl, rfl⟩ <;> decide
  unfold secVal Cfg.entry
  cases h : (sections conf).lookup "pairing" with
  | none => exact (Cfg.eliash_defaults [] (by simp) k v hk).1
  | some e =>
    rw [Option.bind_some]
    cases h' : e.lookup k with
    | none => exact (Cfg.eliash_defaults e (hsec _ _ h) k v hk).2 h'
    | some w => exact Cfg.eliash_option e (hsec _ _ h) k w h' hn.1 hn.2

theorem opt_lookup (conf : Cfg.CfgFile) (hsec : Cfg.WellFormed (sections conf)) (k : String) (v : Cfg.Val)
    (hk : (newOptics none).lookup k = some v) :
    (newOptics ((sections conf).lookup "optics")).lookup k = some (secVal conf "optics" k v) := by
  unfold secVal Cfg.entry
  cases h : (sections conf).lookup "optics" with
  | none => exact hk
  | some e =>
    have : newOptics (some e) = Cfg.update (newOptics none) e := rfl
    rw [this, Cfg.lookup_update _ _ (hsec _ _ h), hk, Option.bind_some]
    cases e.lookup k <;> rfl

theorem optics_present (conf : Cfg.CfgFile) : (conf.lookup "optics").isSome = true ↔ "optics" ∈ conf.map Prod.fst := by
  induction conf with
  | nil => simp
  | cons p conf ih =>
    rw [Cfg.lookup_cons_if, List.map_cons, List.mem_cons]
    split
    · rename_i h; simp [h]
    · rename_i h
      rw [ih]
      constructor
      · exact Or.inr
      · rintro (h' | h')
        · exact absurd h' h
        · exact h'

theorem plan_iff (conf : Cfg.CfgFile) (hsec : Cfg.WellFormed (sections conf)) (P : Plan) : planOf conf = some P ↔ MeansPlan conf P := by
  have p1 := pair_lookup conf hsec "do_pairing_vertex" _ (by simp; rfl)
  have p2 := pair_lookup conf hsec "do_eliash" _ (by simp; rfl)
  have p3 := pair_lookup conf hsec "k_sym" _ (by simp; rfl)
  have p4 := pair_lookup conf hsec "sym_sing" _ (by simp; rfl)
  have p5 := pair_lookup conf hsec "sym_trip" _ (by simp; rfl)
  have p6 := pair_lookup conf hsec "eps" (.num (1 / 1000000)) (by simp)
  have p7 := pair_lookup conf hsec "max_count" _ (by simp; rfl)
  have p8 := pair_lookup conf hsec "n_eig" _ (by simp; rfl)
  have o1 := opt_lookup conf hsec "do_bubble" _ rfl
  have o2 := opt_lookup conf hsec "do_vertex" _ rfl
  have o3 := opt_lookup conf hsec "der_a" _ rfl
  have o4 := opt_lookup conf hsec "der_b" _ rfl
  have o5 := opt_lookup conf hsec "niw_cond" _ rfl
  have o6 := opt_lookup conf hsec "niw_bubble" _ rfl
  have o7 := opt_lookup conf hsec "niw_vert" _ rfl
  have o8 := opt_lookup conf hsec "niv_bubble" _ rfl
  have o9 := opt_lookup conf hsec "niv_vert" _ rfl
  have om : (newOptics ((sections conf).lookup "optics")).lookup "max_ent" = Cfg.entry (sections conf) "optics" "max_ent" := by
    unfold Cfg.entry
    cases h : (sections conf).lookup "optics" with
    | none => rfl
    | some e =>
      have : newOptics (some e) = Cfg.update (newOptics none) e := rfl
      rw [this, Cfg.lookup_update _ _ (hsec _ _ h), Option.bind_some]
      have : (newOptics none).lookup "max_ent" = none := rfl
      rw [this]
      cases e.lookup "max_ent" <;> rfl
  have hopt := optics_present conf
  unfold planOf
  simp only
  constructor
  · intro h
    split_ifs at h with hm
    obtain ⟨x1, h1, h⟩ := Option.bind_eq_some_iff.1 h
    obtain ⟨x2, h2, h⟩ := Option.bind_eq_some_iff.1 h
    obtain ⟨x3, h3, h⟩ := Option.bind_eq_some_iff.1 h
    obtain ⟨x4, h4, h⟩ := Option.bind_eq_some_iff.1 h
    obtain ⟨x5, h5, h⟩ := Option.bind_eq_some_iff.1 h
    obtain ⟨x6, h6, h⟩ := Option.bind_eq_some_iff.1 h
    obtain ⟨x7, h7, h⟩ := Option.bind_eq_some_iff.1 h
    obtain ⟨x8, h8, h⟩ := Option.bind_eq_some_iff.1 h
    obtain ⟨y1, g1, h⟩ := Option.bind_eq_some_iff.1 h
    obtain ⟨y2, g2, h⟩ := Option.bind_eq_some_iff.1 h
    obtain ⟨y3, g3, h⟩ := Option.bind_eq_some_iff.1 h
    obtain ⟨y4, g4, h⟩ := Option.bind_eq_some_iff.1 h
    obtain ⟨y5, g5, h⟩ := Option.bind_eq_some_iff.1 h
    obtain ⟨y6, g6, h⟩ := Option.bind_eq_some_iff.1 h
    obtain ⟨y7, g7, h⟩ := Option.bind_eq_some_iff.1 h
    obtain ⟨y8, g8, h⟩ := Option.bind_eq_some_iff.1 h
    obtain ⟨y9, g9, h⟩ := Option.bind_eq_some_iff.1 h
    cases h
    rw [om, Bool.not_eq_true, Option.isSome_eq_false_iff, Option.isNone_iff_eq_none] at hm
    exact ⟨(boolAttr_iff _ _ _ p1 _).1 h1, (boolAttr_iff _ _ _ p2 _).1 h2, (strAttr_iff _ _ _ p3 _).1 h3, (boolAttr_iff _ _ _ p4 _).1 h4,
      (boolAttr_iff _ _ _ p5 _).1 h5, (realAt_iff _ _ _ p6 _).1 h6, (natAt_iff _ _ _ p7 _).1 h7, (natAt_iff _ _ _ p8 _).1 h8, rfl, hopt, hm,
      (boolAttr_iff _ _ _ o1 _).1 g1, (boolAttr_iff _ _ _ o2 _).1 g2, (dirAt_iff _ _ _ o3 _).1 g3, (dirAt_iff _ _ _ o4 _).1 g4,
      (intAt_iff _ _ _ o5 _).1 g5, (intAt_iff _ _ _ o6 _).1 g6, (intAt_iff _ _ _ o7 _).1 g7, (intAt_iff _ _ _ o8 _).1 g8, (intAt_iff _ _ _ o9 _).1 g9⟩
  · intro m
    obtain ⟨a1, a2, a3, a4, a5, ⟨b1, b2, b3, b4, b5, b6, b7⟩, ⟨c1, c2, c3, c4, c5⟩, a6, a7⟩ := P
    obtain ⟨h1, h2, h3, h4, h5, h6, h7, h8, hs, ho, hm, g1, g2, g3, g4, g5, g6, g7, g8, g9⟩ := m
    simp only at h1 h2 h3 h4 h5 h6 h7 h8 hs ho hm g1 g2 g3 g4 g5 g6 g7 g8 g9
    rw [om, hm]
    rw [(boolAttr_iff _ _ _ p1 _).2 h1, (boolAttr_iff _ _ _ p2 _).2 h2, (strAttr_iff _ _ _ p3 _).2 h3, (boolAttr_iff _ _ _ p4 _).2 h4,
      (boolAttr_iff _ _ _ p5 _).2 h5, (realAt_iff _ _ _ p6 _).2 h6, (natAt_iff _ _ _ p7 _).2 h7, (natAt_iff _ _ _ p8 _).2 h8,
      (boolAttr_iff _ _ _ o1 _).2 g1, (boolAttr_iff _ _ _ o2 _).2 g2, (dirAt_iff _ _ _ o3 _).2 g3, (dirAt_iff _ _ _ o4 _).2 g4,
      (intAt_iff _ _ _ o5 _).2 g5, (intAt_iff _ _ _ o6 _).2 g6, (intAt_iff _ _ _ o7 _).2 g7, (intAt_iff _ _ _ o8 _).2 g8, (intAt_iff _ _ _ o9 _).2 g9]
    have hp : (conf.lookup "optics").isSome = a3 := by
      rw [Bool.eq_iff_iff, hopt, ho]
    subst hs
    rw [hp]
    rfl

/-- **C136 (f).** The complete program started with a configuration file returns a result exactly if the file is accepted, and the complete run of (a) to
    (e) with the input files, settings and plan the file means returns it. -/
theorem program_all_iff (fs : Inp.Fs) (wan : String → Option (List Str)) (conf : Cfg.CfgFile) (ranks : Nat) (X : ∀ nx ny nz, Chance nx ny nz)
    (hwf : ∀ s e, conf.lookup s = some (some e) → (e.map Prod.fst).Nodup) (hkeys : (conf.map Prod.fst).Nodup) (res : Result) :
    programAll fs wan conf ranks X = .ok res ↔
      ∃ (ty path f1 : String) (f2 : Option String) (S : Settings) (P : Plan) (_ : NeZero S.nx) (_ : NeZero S.ny) (_ : NeZero S.nz)
        (r : AllOut S.nx S.ny S.nz), Means wan conf ranks ty path f1 f2 S ∧ MeansPlan conf P ∧
        mainAll fs ty path f1 f2 S P (X S.nx S.ny S.nz) = .ok r ∧ res = ⟨(S.nx, S.ny, S.nz), r⟩ := by
  have hsec := sections_wf conf hwf hkeys
  have key := setup_iff wan conf ranks hwf hkeys
  unfold programAll
  constructor
  · intro h
    split at h
    · cases h
    · rename_i s hs
      split at h
      · cases h
      · rename_i P hP
        unfold mainOf at h
        split_ifs at h with hz
        split at h
        · cases h
        · rename_i r hr
          cases h
          exact ⟨s.ty, s.path, s.f1, s.f2, s.S, P, ⟨hz.1⟩, ⟨hz.2.1⟩, ⟨hz.2.2⟩, r, (key s).1 hs, (plan_iff conf hsec P).1 hP, hr, rfl⟩
  · rintro ⟨ty, path, f1, f2, S, P, z1, z2, z3, r, hm, hP, hr, rfl⟩
    rw [(key ⟨ty, path, f1, f2, S⟩).2 hm, (plan_iff conf hsec P).2 hP]
    simp only
    unfold mainOf
    rw [dif_pos ⟨NeZero.ne S.nx, NeZero.ne S.ny, NeZero.ne S.nz⟩]
    simp only [hr]

end DGA.Whole
