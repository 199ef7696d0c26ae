/-
  C121: construction of the run configuration from a configuration file (config.py:216-285, 499-595): which files are accepted, what the lattice is,
  and the limit on the number of processes.
-/
import Verif.Config.NamespaceProps
import Verif.Config.Props
import Verif.Bz.Count
import Verif.Mpi.Props
import Verif.Wannier.Props

namespace DGA.Cfg

open DGA.Bz (Sym)

/-- The parsed configuration file (config.py:39-54): sections by name; a section without entries is `None` in YAML. -/
abbrev CfgFile := List (String × Option Dict)

/-- kinds of exceptions -/
inductive Err where
  | typeError | valueError | notImplemented | assertion | unreadable
  deriving DecidableEq

/-- a number of the file (Booleans as hopping amplitudes are outside the model) -/
def numOf : Val → Option Rat
  | .int i => some i
  | .num q => some q
  | _ => none

/-- config.py:231-235, brillouin_zone.py:157-164: what `KGrid` accepts as grid size; any other value raises while the axes are built (all of these
    exceptions are `typeError` here). -/
def triple : Val → Option (Nat × Nat × Nat)
  | .list [.int a, .int b, .int c] => if 0 ≤ a ∧ 0 ≤ b ∧ 0 ≤ c then some (a.toNat, b.toNat, c.toNat) else none
  | _ => none

/-- the entry `symmetries` as `check_symmetries` (config.py:244-261) sees it: a string, a list (of which only emptiness matters), a value that is
    false in a condition, or anything else -/
def symValue : Val → SymValue
  | .str s => .str s
  | .list l => .seq (l.map fun _ => "")
  | .null => .null
  | .bool false => .null
  | .int 0 => .null
  | .dict [] => .null
  | .num q => if q = 0 then .null else .seq [""]
  | _ => .seq [""]

/-- the real-space Hamiltonian: hopping amplitudes or the name of a wannier90 file -/
inductive HrIn where
  | hop (t tp tpp : Rat)
  | file (name : String)

/-- config.py:271-281 `set_hr`; `readable`: whether `read_hr_w2k` succeeds on a file (C80).  `wannier_one_band_2d_t_tp_tpp` has three arguments
    without defaults; `None` cannot be unpacked; a string would be unpacked into characters, which cannot be negated. -/
def setHr (readable : String → Bool) (type input : Val) : Except Err HrIn :=
  match type with
  | .str "t_tp_tpp" =>
    match input with
    | .list [a, b, c] =>
      match numOf a, numOf b, numOf c with
      | some t, some tp, some tpp => .ok (.hop t tp tpp)
      | _, _, _ => .error .typeError
    | _ => .error .typeError
  | .str "from_wannier90" =>
    match input with
    | .str f => if readable f then .ok (.file f) else .error .unreadable
    | _ => .error .assertion
  | _ => .error .notImplemented

/-- attributes of `LatticeConfig` -/
structure Lattice where
  nk : Nat × Nat × Nat
  nq : Nat × Nat × Nat
  syms : List Sym
  kGrid : Bz.Arr3 Nat
  qGrid : Bz.Arr3 Nat
  hr : HrIn

/-- config.py:216-222 the defaults of `LatticeConfig` -/
def latticeDefaults : Dict :=
  [("nk", .list [.int 16, .int 16, .int 1]), ("nq", .list [.int 16, .int 16, .int 1]), ("symmetries", .list []), ("hr_input", .null), ("type", .null)]

/-- config.py:216-242 `LatticeConfig.__init__`; `**None` raises. -/
def buildLattice (readable : String → Bool) : Option Dict → Except Err Lattice
  | none => .error .typeError
  | some e =>
    let d0 := update latticeDefaults e
    let get (d : Dict) (k : String) : Val := (d.lookup k).getD .null
    let d := if (e.lookup "nq").isNone then put d0 "nq" (get d0 "nk") else d0
    match checkSymmetries (symValue (get d "symmetries")) with
    | none => .error .notImplemented
    | some syms =>
      match triple (get d "nk"), triple (get d "nq") with
      | some nk, some nq =>
        match Bz.fbz2irrk nk.1 nk.2.1 nk.2.2 syms, Bz.fbz2irrk nq.1 nq.2.1 nq.2.2 syms with
        | some k, some q =>
          match get d "type" with
          | .null => .error .valueError
          | t => (setHr readable t (get d "hr_input")).map fun h => ⟨nk, nq, syms, k, q, h⟩
        | _, _ => .error .assertion
      | _, _ => .error .typeError

/-- brillouin_zone.py:166-169, 210-212 `nk_irr` of a grid -/
def nIrr (m : Bz.Arr3 Nat) : Nat := (Bz.irrkInd (Bz.flat3 m)).length

/-- config.py:515-595 `DgaConfig.__init__(conf_file, comm)`: the lattice is required; `box_sizes`, `pairing`, `optics` and `debug` may be absent or
    empty (their constructors test for `None`); the four merged sections may be absent but not empty (`**None`); at the end the number of processes
    is compared with the irreducible points of the k grid.  `box_sizes`, `pairing`, `optics`, `debug` are taken to hold values of the right types. -/
def buildDga (readable : String → Bool) (conf : CfgFile) (comm : Option Nat) : Except Err (Lattice × Dict) :=
  match conf.lookup "lattice" with
  | none => .error .valueError
  | some sec =>
    match buildLattice readable sec with
    | .error e => .error e
    | .ok L =>
      if ["poly_fitting", "dmft_input", "output", "dga"].any (fun s => match conf.lookup s with | some none => true | _ => false) then .error .typeError
      else if commSizeOk comm (nIrr L.kGrid) then .ok (L, newDga [] (conf.filterMap fun p => p.2.map fun d => (p.1, d)))
      else .error .valueError

/-- config.py:283-285 `get_ek` for a lattice with hopping amplitudes -/
noncomputable def Lattice.ek (L : Lattice) (t tp tpp : Rat) (i j k : Nat) : ℂ := Wan.getEk (Wan.oneBand t tp tpp) L.nk.1 L.nk.2.1 L.nk.2.2 i j k

/-! ### Specification -/

/-- the value of an option of the lattice section -/
def opt (e : Dict) (k : String) (dflt : Val) : Val := (e.lookup k).getD dflt

/-- symmetry entries that a file may contain, and the operations they mean -/
inductive SymEntry : Val → List Sym → Prop
  | square : SymEntry (.str "two_dimensional_square") [.xInv, .yInv, .xySym]
  | quasi1d : SymEntry (.str "quasi_one_dimensional_square") [.xInv, .yInv]
  | xy : SymEntry (.str "simultaneous_x_y_inversion") [.xyInv]
  | none_ : SymEntry (.str "none") []
  | emptyStr : SymEntry (.str "") []
  | emptyList : SymEntry (.list []) []
  | null : SymEntry .null []
  | false_ : SymEntry (.bool false) []
  | zero : SymEntry (.int 0) []
  | zeroNum : SymEntry (.num 0) []
  | emptyMap : SymEntry (.dict []) []

/-- a grid size -/
def GridEntry (v : Val) (n : Nat × Nat × Nat) : Prop := v = .list [.int n.1, .int n.2.1, .int n.2.2]

/-- the description of the Hamiltonian -/
inductive HrEntry (readable : String → Bool) : Val → Val → HrIn → Prop
  | hop (a b c : Val) (t tp tpp : Rat) (ha : numOf a = some t) (hb : numOf b = some tp) (hc : numOf c = some tpp) :
      HrEntry readable (.str "t_tp_tpp") (.list [a, b, c]) (.hop t tp tpp)
  | file (f : String) (h : readable f = true) : HrEntry readable (.str "from_wannier90") (.str f) (.file f)

/-- a lattice section and the lattice it describes -/
structure Describes (readable : String → Bool) (e : Dict) (nk nq : Nat × Nat × Nat) (syms : List Sym) (h : HrIn) : Prop where
  nk : GridEntry (opt e "nk" (.list [.int 16, .int 16, .int 1])) nk
  nq : GridEntry (opt e "nq" (opt e "nk" (.list [.int 16, .int 16, .int 1]))) nq
  syms : SymEntry (opt e "symmetries" (.list [])) syms
  hr : HrEntry readable (opt e "type" .null) (opt e "hr_input" .null) h

/-- the number of irreducible points of a grid -/
def irrPoints (n : Nat × Nat × Nat) (syms : List Sym) : Nat := ((Bz.fbz2irrk n.1 n.2.1 n.2.2 syms).map nIrr).getD 0

/-! ### Lemmas -/

theorem symEntry_iff (v : Val) (l : List Sym) : SymEntry v l ↔ checkSymmetries (symValue v) = some l := by
  constructor
  · rintro ⟨⟩ <;> simp [symValue, checkSymmetries, Bz.square, Bz.quasi1d, Bz.xyInversion]
  · intro h
    have hempty : checkSymmetries (.seq [""]) = none := by simp [checkSymmetries]
    have hnull : ∀ l, checkSymmetries .null = some l → l = [] := by intro l; simp [checkSymmetries, eq_comm]
    cases v with
    | null => rw [hnull l h]; exact .null
    | str s =>
      simp only [symValue, checkSymmetries] at h
      split_ifs at h with h1 h2 h3 h4 h5
      · subst h1; rw [← Option.some.inj h]; exact .square
      · subst h2; rw [← Option.some.inj h]; exact .quasi1d
      · subst h3; rw [← Option.some.inj h]; exact .xy
      · subst h4; rw [← Option.some.inj h]; exact .emptyStr
      · subst h5; rw [← Option.some.inj h]; exact .none_
    | bool b =>
      cases b
      · rw [hnull l h]; exact .false_
      · simp only [symValue] at h; rw [hempty] at h; cases h
    | int i =>
      by_cases hi : i = 0
      · subst hi; rw [hnull l h]; exact .zero
      · have : symValue (.int i) = .seq [""] := by
          simp only [symValue]; split <;> simp_all
        rw [this, hempty] at h; cases h
    | num q =>
      by_cases hq : q = 0
      · subst hq
        simp only [symValue, if_true] at h
        rw [hnull l h]; exact .zeroNum
      · simp only [symValue, if_neg hq] at h
        rw [hempty] at h; cases h
    | list x =>
      cases x with
      | nil =>
        simp only [symValue, checkSymmetries, List.map_nil, if_true, Option.some.injEq] at h
        rw [← h]; exact .emptyList
      | cons a b => simp [symValue, checkSymmetries] at h
    | dict d =>
      cases d with
      | nil => rw [hnull l h]; exact .emptyMap
      | cons a b => simp only [symValue] at h; rw [hempty] at h; cases h
    | inst d => simp only [symValue] at h; rw [hempty] at h; cases h

theorem gridEntry_iff (v : Val) (n : Nat × Nat × Nat) : GridEntry v n ↔ triple v = some n := by
  unfold GridEntry
  constructor
  · rintro rfl; simp [triple]
  · intro h
    unfold triple at h
    split at h
    · split_ifs at h with h0
      obtain ⟨rfl⟩ := Option.some.inj h
      simp [Int.toNat_of_nonneg h0.1, Int.toNat_of_nonneg h0.2.1, Int.toNat_of_nonneg h0.2.2]
    · cases h

theorem hrEntry_iff (readable : String → Bool) (t i : Val) (h : HrIn) : HrEntry readable t i h ↔ setHr readable t i = .ok h := by
  constructor
  · rintro (⟨a, b, c, t, tp, tpp, ha, hb, hc⟩ | ⟨f, hf⟩)
    · simp [setHr, ha, hb, hc]
    · simp [setHr, hf]
  · intro hh
    unfold setHr at hh
    split at hh
    · split at hh
      · split at hh
        · rename_i h1 h2 h3
          cases hh
          exact .hop _ _ _ _ _ _ h1 h2 h3
        · cases hh
      · cases hh
    · split at hh
      · split_ifs at hh with h1
        cases hh
        exact .file _ h1
      · cases hh
    · cases hh

/-- every accepted symmetry entry folds every grid -/
theorem fold_defined (v : Val) (l : List Sym) (h : SymEntry v l) (a b c : Nat) : ∃ m, Bz.fbz2irrk a b c l = some m := by
  have hp : ∀ s ∈ Bz.predefined, ∃ m, Bz.fbz2irrk a b c s = some m := fun s hs => by
    obtain ⟨m, hm, -⟩ := Bz.irrk_representative a b c s hs; exact ⟨m, hm⟩
  have hx : ∃ m, Bz.fbz2irrk a b c [.xyInv] = some m := by
    obtain ⟨m, hm, -⟩ := Bz.xyInversion_value a b c; exact ⟨m, hm⟩
  cases h
  case xy => exact hx
  all_goals exact hp _ (by simp [Bz.predefined, Bz.square, Bz.quasi1d])

theorem lattice_opt (e : Dict) (he : (e.map Prod.fst).Nodup) (k : String) (v : Val) (hk : latticeDefaults.lookup k = some v) (hq : k ≠ "nq") :
    ∀ d0 d : Dict, d0 = update latticeDefaults e → d = (if (e.lookup "nq").isNone then put d0 "nq" ((d0.lookup "nk").getD .null) else d0) →
      (d.lookup k).getD .null = opt e k v := by
  rintro d0 d rfl rfl
  have h1 : (update latticeDefaults e).lookup k = some (opt e k v) := by
    rw [lookup_update _ _ he, hk]
    unfold opt
    cases e.lookup k <;> rfl
  split_ifs
  · rw [lookup_put, if_neg hq, h1]; rfl
  · rw [h1]; rfl

theorem lattice_nq (e : Dict) (he : (e.map Prod.fst).Nodup) :
    ∀ d0 d : Dict, d0 = update latticeDefaults e → d = (if (e.lookup "nq").isNone then put d0 "nq" ((d0.lookup "nk").getD .null) else d0) →
      (d.lookup "nq").getD .null = opt e "nq" (opt e "nk" (.list [.int 16, .int 16, .int 1])) := by
  rintro d0 d rfl rfl
  have h1 : (update latticeDefaults e).lookup "nk" = some (opt e "nk" (.list [.int 16, .int 16, .int 1])) := by
    rw [lookup_update _ _ he]
    unfold opt
    cases e.lookup "nk" <;> rfl
  cases hq : e.lookup "nq" with
  | none => simp [opt, hq, lookup_put, h1]
  | some v =>
    simp only [Option.isNone_some, Bool.false_eq_true, if_false]
    rw [lookup_update _ _ he, hq]
    simp [opt, hq]

theorem buildLattice_iff (readable : String → Bool) (e : Dict) (he : (e.map Prod.fst).Nodup) (L : Lattice) :
    buildLattice readable (some e) = .ok L ↔ Describes readable e L.nk L.nq L.syms L.hr ∧
      Bz.fbz2irrk L.nk.1 L.nk.2.1 L.nk.2.2 L.syms = some L.kGrid ∧ Bz.fbz2irrk L.nq.1 L.nq.2.1 L.nq.2.2 L.syms = some L.qGrid := by
  have hnk := lattice_opt e he "nk" _ rfl (by decide) _ _ rfl rfl
  have hsy := lattice_opt e he "symmetries" _ rfl (by decide) _ _ rfl rfl
  have hty := lattice_opt e he "type" _ rfl (by decide) _ _ rfl rfl
  have hhr := lattice_opt e he "hr_input" _ rfl (by decide) _ _ rfl rfl
  have hnq := lattice_nq e he _ _ rfl rfl
  unfold buildLattice
  simp only [hnk, hsy, hty, hhr, hnq]
  have hD : ∀ nk nq syms h, Describes readable e nk nq syms h ↔
      triple (opt e "nk" (.list [.int 16, .int 16, .int 1])) = some nk ∧ triple (opt e "nq" (opt e "nk" (.list [.int 16, .int 16, .int 1]))) = some nq ∧
      checkSymmetries (symValue (opt e "symmetries" (.list []))) = some syms ∧
      setHr readable (opt e "type" .null) (opt e "hr_input" .null) = .ok h := by
    intro nk nq syms h
    rw [← gridEntry_iff, ← gridEntry_iff, ← symEntry_iff, ← hrEntry_iff]
    exact ⟨fun x => ⟨x.nk, x.nq, x.syms, x.hr⟩, fun x => ⟨x.1, x.2.1, x.2.2.1, x.2.2.2⟩⟩
  rw [hD]
  cases hs : checkSymmetries (symValue (opt e "symmetries" (.list []))) with
  | none => simp
  | some syms =>
    cases h1 : triple (opt e "nk" (.list [.int 16, .int 16, .int 1])) with
    | none => simp
    | some nk =>
      cases h2 : triple (opt e "nq" (opt e "nk" (.list [.int 16, .int 16, .int 1]))) with
      | none => simp
      | some nq =>
        obtain ⟨k, hk⟩ := fold_defined _ _ ((symEntry_iff _ _).2 hs) nk.1 nk.2.1 nk.2.2
        obtain ⟨q, hq⟩ := fold_defined _ _ ((symEntry_iff _ _).2 hs) nq.1 nq.2.1 nq.2.2
        simp only [hk, hq]
        have key : (match opt e "type" .null with
            | .null => Except.error Err.valueError
            | t => (setHr readable t (opt e "hr_input" .null)).map fun h => (⟨nk, nq, syms, k, q, h⟩ : Lattice)) = .ok L ↔
            ∃ h, setHr readable (opt e "type" .null) (opt e "hr_input" .null) = .ok h ∧ (⟨nk, nq, syms, k, q, h⟩ : Lattice) = L := by
          generalize opt e "type" .null = t
          generalize opt e "hr_input" .null = i
          have gen : (setHr readable t i).map (fun h => (⟨nk, nq, syms, k, q, h⟩ : Lattice)) = .ok L ↔
              ∃ h, setHr readable t i = .ok h ∧ (⟨nk, nq, syms, k, q, h⟩ : Lattice) = L := by
            cases setHr readable t i <;> simp [Except.map]
          cases t <;> first | exact gen | simp [setHr]
        rw [key]
        constructor
        · rintro ⟨h, hh, rfl⟩
          exact ⟨⟨rfl, rfl, rfl, hh⟩, hk, hq⟩
        · rintro ⟨⟨e1, e2, e3, hh⟩, g1, g2⟩
          refine ⟨_, hh, ?_⟩
          obtain ⟨nk', nq', syms', k', q', h'⟩ := L
          simp only [Option.some.injEq] at e1 e2 e3
          subst e1; subst e2; subst e3
          rw [hk] at g1; rw [hq] at g2
          cases g1; cases g2
          rfl

/-! ### C121 -/

/-- **C121 (a).** A configuration file is accepted exactly if it has a lattice section with grid sizes, a known symmetry entry and a complete
    description of the Hamiltonian, none of the sections `poly_fitting`, `dmft_input`, `output`, `dga` is present but empty, and there are at most as
    many processes as irreducible points of the k grid.  The configuration then has this lattice, and the merged options of C100. -/
theorem accepted_iff (readable : String → Bool) (conf : CfgFile) (comm : Option Nat)
    (hwf : ∀ e, conf.lookup "lattice" = some (some e) → (e.map Prod.fst).Nodup) (L : Lattice) (d : Dict) :
    buildDga readable conf comm = .ok (L, d) ↔
      (∃ e, conf.lookup "lattice" = some (some e) ∧ Describes readable e L.nk L.nq L.syms L.hr) ∧
      Bz.fbz2irrk L.nk.1 L.nk.2.1 L.nk.2.2 L.syms = some L.kGrid ∧ Bz.fbz2irrk L.nq.1 L.nq.2.1 L.nq.2.2 L.syms = some L.qGrid ∧
      (∀ s ∈ ["poly_fitting", "dmft_input", "output", "dga"], conf.lookup s ≠ some none) ∧
      (∀ n, comm = some n → n ≤ irrPoints L.nk L.syms) ∧
      d = newDga [] (conf.filterMap fun p => p.2.map fun d => (p.1, d)) := by
  unfold buildDga
  have hany : (["poly_fitting", "dmft_input", "output", "dga"].any (fun s => match conf.lookup s with | some none => true | _ => false) = true) ↔
      ¬ ∀ s ∈ ["poly_fitting", "dmft_input", "output", "dga"], conf.lookup s ≠ some none := by
    rw [List.any_eq_true]
    push Not
    constructor
    · rintro ⟨s, hs, h⟩
      refine ⟨s, hs, ?_⟩
      split at h
      · assumption
      · cases h
    · rintro ⟨s, hs, h⟩
      exact ⟨s, hs, by rw [h]⟩
  cases hl : conf.lookup "lattice" with
  | none => simp
  | some sec =>
    cases sec with
    | none => simp [buildLattice]
    | some e =>
      have hb := buildLattice_iff readable e (hwf e hl)
      simp only [Option.some.injEq, exists_eq_left']
      cases hB : buildLattice readable (some e) with
      | error x =>
        simp only [reduceCtorEq, false_iff]
        rintro ⟨h1, h2, h3, -⟩
        have := (hb L).2 ⟨h1, h2, h3⟩
        rw [hB] at this; cases this
      | ok L' =>
        obtain ⟨g1, g2, g3⟩ := (hb L').1 hB
        have hirr : irrPoints L'.nk L'.syms = nIrr L'.kGrid := by simp [irrPoints, g2]
        have hcomm : commSizeOk comm (nIrr L'.kGrid) = true ↔ ∀ n, comm = some n → n ≤ irrPoints L'.nk L'.syms := by
          rw [hirr]
          cases comm <;> simp [commSizeOk]
        simp only
        by_cases ha : ∀ s ∈ ["poly_fitting", "dmft_input", "output", "dga"], conf.lookup s ≠ some none
        · rw [if_neg (fun h => hany.1 h ha)]
          by_cases hc : commSizeOk comm (nIrr L'.kGrid) = true
          · rw [if_pos hc]
            simp only [Except.ok.injEq, Prod.mk.injEq]
            constructor
            · rintro ⟨rfl, rfl⟩
              exact ⟨g1, g2, g3, ha, hcomm.1 hc, rfl⟩
            · rintro ⟨h1, h2, h3, -, -, rfl⟩
              have := (hb L).2 ⟨h1, h2, h3⟩
              rw [hB] at this
              cases this
              exact ⟨rfl, rfl⟩
          · rw [if_neg hc]
            simp only [reduceCtorEq, false_iff]
            rintro ⟨h1, h2, h3, -, h5, -⟩
            have := (hb L).2 ⟨h1, h2, h3⟩
            rw [hB] at this
            cases this
            exact hc (hcomm.2 h5)
        · rw [if_pos (hany.2 ha)]
          simp only [reduceCtorEq, false_iff]
          rintro ⟨-, -, -, h4, -⟩
          exact ha h4

/-- **C121 (b).** Without `nq` in the lattice section the two grids are the same, and then every accepted number of processes leaves no process without
    an irreducible q-point. -/
theorem no_idle_process (readable : String → Bool) (conf : CfgFile) (n : Nat) (hn : 0 < n) (e : Dict) (he : (e.map Prod.fst).Nodup)
    (hl : conf.lookup "lattice" = some (some e)) (hq : e.lookup "nq" = none) (L : Lattice) (d : Dict)
    (h : buildDga readable conf (some n) = .ok (L, d)) :
    L.nq = L.nk ∧ L.qGrid = L.kGrid ∧ ∀ r, r < n → ∃ a, Mpi.mySize (nIrr L.qGrid) n r = some a ∧ 0 < a := by
  obtain ⟨⟨e', h1, h2⟩, h3, h4, -, h6, -⟩ := (accepted_iff readable conf (some n) (by rintro e' h'; rw [hl] at h'; cases h'; exact he) L d).1 h
  rw [hl] at h1
  cases h1
  have hk := h2.nk
  have hqq := h2.nq
  have : opt e "nq" (opt e "nk" (.list [.int 16, .int 16, .int 1])) = opt e "nk" (.list [.int 16, .int 16, .int 1]) := by simp [opt, hq]
  rw [this, gridEntry_iff] at hqq
  rw [gridEntry_iff, hqq] at hk
  have e1 : L.nq = L.nk := Option.some.inj hk
  have e2 : L.qGrid = L.kGrid := by
    rw [e1, h3] at h4; exact (Option.some.inj h4).symm
  refine ⟨e1, e2, ?_⟩
  rw [e2, Mpi.no_idle_rank_iff _ _ hn]
  have := h6 n rfl
  simpa [irrPoints, h3] using this

/-- **C121 (c).** The band of an accepted lattice with hopping amplitudes is the closed form with these amplitudes. -/
theorem lattice_band (L : Lattice) (t tp tpp : Rat) (i j k : Nat) (hj : j < L.nk.2.1) (hk : k < L.nk.2.2) :
    L.ek t tp tpp i j k = (Wan.ekSquare (2 * Real.pi * i / L.nk.1) (2 * Real.pi * j / L.nk.2.1) t tp tpp : ℂ) :=
  Wan.getEk_square t tp tpp _ _ _ i j k hj hk

/-- a file with a q grid smaller than the k grid -/
def coarseQ : CfgFile :=
  [("lattice", some [("symmetries", .str "two_dimensional_square"), ("type", .str "t_tp_tpp"),
    ("hr_input", .list [.num 1, .num (-2 / 10), .num (1 / 10)]), ("nk", .list [.int 4, .int 4, .int 1]), ("nq", .list [.int 2, .int 2, .int 1])])]

/-- **C121 (d).** The limit counts the points of the k grid, but the q-points are distributed: with a coarser q grid an accepted number of processes
    leaves processes without any q-point. -/
theorem limit_on_wrong_grid : ∃ L d, buildDga (fun _ => false) coarseQ (some 6) = .ok (L, d) ∧ Mpi.mySize (nIrr L.qGrid) 6 0 = some 0 := by
  obtain ⟨mk, hk⟩ := fold_defined _ _ SymEntry.square 4 4 1
  obtain ⟨mq, hq⟩ := fold_defined _ _ SymEntry.square 2 2 1
  have k1 := (Bz.nkIrr_value 4 4 1 (by omega) (by omega) (by omega)).2.2.2.1
  have q1 := (Bz.nkIrr_value 2 2 1 (by omega) (by omega) (by omega)).2.2.2.1
  have nk6 : nIrr mk = 6 := by
    unfold Bz.nkIrr Bz.square at k1
    rw [hk] at k1
    simpa [nIrr] using k1
  have nq3 : nIrr mq = 3 := by
    unfold Bz.nkIrr Bz.square at q1
    rw [hq] at q1
    simpa [nIrr] using q1
  refine ⟨⟨(4, 4, 1), (2, 2, 1), [.xInv, .yInv, .xySym], mk, mq, .hop 1 (-2 / 10) (1 / 10)⟩, _, (accepted_iff _ _ _ ?_ _ _).2
    ⟨⟨_, rfl, ⟨rfl, rfl, .square, .hop _ _ _ _ _ _ rfl rfl rfl⟩⟩, hk, hq, ?_, ?_, rfl⟩, ?_⟩
  · intro e he
    simp only [coarseQ, List.lookup_cons, beq_self_eq_true, Option.some.injEq] at he
    rw [← he]; decide
  · intro s hs
    simp only [List.mem_cons, List.not_mem_nil, or_false] at hs
    rcases hs with rfl | rfl | rfl | rfl <;> simp [coarseQ, List.lookup_cons]
  · intro n hn
    cases hn
    simp [irrPoints, hk, nk6]
  · simp only
    rw [nq3]; decide

/-- the grids of the usual configuration, in numbers: `two_dimensional_square` on `n × n × nz` allows `(n/2+1)(n/2+2)/2 · nz` processes -/
theorem square_limit (n nz : Nat) (hn : 0 < n) (hz : 0 < nz) :
    irrPoints (n, n, nz) [.xInv, .yInv, .xySym] = (n / 2 + 1) * (n / 2 + 2) / 2 * nz := by
  have h := (Bz.nkIrr_value n n nz hn hn hz).2.2.2.1
  unfold Bz.nkIrr Bz.square at h
  unfold irrPoints nIrr
  simp only [if_true] at h
  rw [h]; rfl

/-- an empty section `output:` is refused, an absent one accepted (the file of the previous theorem) -/
theorem empty_section_refused (readable : String → Bool) (conf : CfgFile) (comm : Option Nat)
    (hwf : ∀ e, conf.lookup "lattice" = some (some e) → (e.map Prod.fst).Nodup)
    (s : String) (hs : s ∈ ["poly_fitting", "dmft_input", "output", "dga"]) (h : conf.lookup s = some none) (x : Lattice × Dict) :
    buildDga readable conf comm ≠ .ok x := by
  intro hx
  obtain ⟨-, -, -, h4, -⟩ := (accepted_iff readable conf comm hwf x.1 x.2).1 hx
  exact h4 s hs h

end DGA.Cfg
