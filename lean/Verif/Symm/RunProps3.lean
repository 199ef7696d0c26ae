/-
  C127: reading the result back, runs that end early, and the one-particle target.
-/
import Verif.Symm.RunProps2

namespace DGA.Sym

variable {K : Type} [Field K]

/-! ### the written file and the reader -/

/-- rows of a two-dimensional dataset -/
def rowsOf (A : Arr K) : List (List K) :=
  match A.shape with
  | [r, c] => (List.range r).map fun i => (List.range c).map fun j => (A.at_ [i, j]).getD 0
  | _ => []

/-- the datasets `/ineq-{a+1:03}/{ch}/{wn:05}/{i:05}/value`, `wn < n`, as `W2dynG4iwFile` sees them: w2dyn_aux_dga.py:256, 268, 284, 294 -/
def g2Of (o : OutFile K) (a : Nat) (ch : String) (i : Int) (n : Nat) : G2File K :=
  (List.range n).filterMap fun w => (o (a, ch, w, i)).map fun A => ((w : Int), rowsOf A)

open Classical in
theorem run_file [CharZero K] (c : Conf) (ht : c.target = .ffb3) (f : InFile K) (ans : Bool) (nf nb : Nat) (nba : Nat → Nat)
    (X : Nat → Q4 → Q4 → List Nat → Option K) (h : InputOk c f nf nb nba X) :
    ∃ o, run c (some f) ans .absent = (.done, .file o) ∧
      ∀ a < c.nineq, ∀ ch, ch = "dens" ∨ ch = "magn" → ∀ (g : Q4) (orb : Finset Q4) (i : Int),
        InRange (c.nbands.getD a 0) g → Kan g → (∀ t, t ∈ orb ↔ Equiv4 (c.sym.getD a []) g t) →
        component2indexBand (c.nbands.getD a 0) 4 g.toList = some i →
        g2Of o a ch i (2 * nb + 1) = writeG2 nf nb fun v v' w =>
          ∑ s ∈ sixSpins, weight K ch s * ((∑ b ∈ orb, (X a s b [v, v', w]).getD 0) / (orb.card : K)) := by
  obtain ⟨o, h1, -, h3, h4⟩ := run_value c f ans nf nb nba X h
  refine ⟨o, h1, ?_⟩
  intro a ha ch hch g orb i hr hk horb hi
  set S : Nat → Nat → Nat → K := fun v v' w =>
    ∑ s ∈ sixSpins, weight K ch s * ((∑ b ∈ orb, (X a s b [v, v', w]).getD 0) / (orb.card : K)) with hS
  have hentry : ∀ w < 2 * nb + 1, ∃ A, o (a, ch, w, i) = some A ∧ rowsOf A = (List.range (2 * nf)).map fun p => (List.range (2 * nf)).map fun q => S q p w := by
    intro w hw
    have hw' : w < nBlocks c.target nb := by rw [ht]; exact hw
    have key : ∀ p q, ∃ A, o (a, ch, w, i) = some A ∧ A.at_ [p, q] = some (S q p w) := by
      intro p q
      refine h4 a ha ch hch w hw' g orb i [p, q] (fun s b => (X a s b [q, p, w]).getD 0) hr hk horb hi ?_
      intro s _ b _ _
      have hp : place c.target w [p, q] = [q, p, w] := by rw [ht]; rfl
      rw [hp, ht]
      cases X a s b [q, p, w] <;> rfl
    obtain ⟨A, hA, -⟩ := key 0 0
    refine ⟨A, hA, ?_⟩
    have hsh := h3 _ A hA
    rw [ht] at hsh
    unfold rowsOf
    rw [hsh]
    simp only [outShape]
    apply List.map_congr_left
    intro p _
    apply List.map_congr_left
    intro q _
    obtain ⟨A', hA', hv⟩ := key p q
    rw [hA] at hA'
    injection hA' with hA'
    rw [hA', hv]; rfl
  have hfile : g2Of o a ch i (2 * nb + 1) = writeG2 nf nb S := by
    unfold g2Of writeG2
    rw [← List.filterMap_eq_map]
    apply List.filterMap_congr
    intro w hw
    obtain ⟨A, hA, hrow⟩ := hentry w (List.mem_range.mp hw)
    rw [hA, Option.map_some, hrow]; rfl
  exact hfile

open Classical in
/-- C127. A three-frequency input symmetrised by the program and read with `read_g2_full`: entry `(w, v, v')` is the weighted sum over the spins of
    the average over the equivalent band tuples of the data at `(v, v', w)`, NaN counting as zero. -/
theorem run_then_read [CharZero K] (c : Conf) (ht : c.target = .ffb3) (f : InFile K) (ans : Bool) (nf nb : Nat) (nba : Nat → Nat)
    (X : Nat → Q4 → Q4 → List Nat → Option K) (h : InputOk c f nf nb nba X) :
    ∃ o, run c (some f) ans .absent = (.done, .file o) ∧
      ∀ a < c.nineq, ∀ ch, ch = "dens" ∨ ch = "magn" → ∀ (g : Q4) (orb : Finset Q4) (i : Int),
        InRange (c.nbands.getD a 0) g → Kan g → (∀ t, t ∈ orb ↔ Equiv4 (c.sym.getD a []) g t) →
        component2indexBand (c.nbands.getD a 0) 4 g.toList = some i →
        readG2Full (g2Of o a ch i (2 * nb + 1)) = (List.range (2 * nb + 1)).map fun w => (List.range (2 * nf)).map fun v =>
          (List.range (2 * nf)).map fun v' =>
            ∑ s ∈ sixSpins, weight K ch s * ((∑ b ∈ orb, (X a s b [v, v', w]).getD 0) / (orb.card : K)) := by
  obtain ⟨o, h1, h2⟩ := run_file c ht f ans nf nb nba X h
  refine ⟨o, h1, ?_⟩
  intro a ha ch hch g orb i hr hk horb hi
  rw [h2 a ha ch hch g orb i hr hk horb hi, readG2Full_writeG2]

open Classical in
/-- C127. The box comes from the first atom of `worm-last`.  If the data of atom `a` have a larger bosonic box, `nba a > nb`, the program ends as usual, but
    what `read_g2_iw` returns for the bosonic frequency `w` is the data at index `w + nb`, which is the frequency `w - (nba a - nb)`: in particular
    not the static one for `w = 0`. -/
theorem run_box_off_centre [CharZero K] (c : Conf) (ht : c.target = .ffb3) (f : InFile K) (ans : Bool) (nf nb : Nat) (nba : Nat → Nat)
    (X : Nat → Q4 → Q4 → List Nat → Option K) (h : InputOk c f nf nb nba X) (Y : Nat → Q4 → Q4 → Int → Nat → Nat → Option K)
    (hY : ∀ a s b v v' w, X a s b [v, v', w] = Y a s b ((w : Int) - nba a) v v') :
    ∃ o, run c (some f) ans .absent = (.done, .file o) ∧
      ∀ a < c.nineq, ∀ ch, ch = "dens" ∨ ch = "magn" → ∀ (g : Q4) (orb : Finset Q4) (i : Int),
        InRange (c.nbands.getD a 0) g → Kan g → (∀ t, t ∈ orb ↔ Equiv4 (c.sym.getD a []) g t) →
        component2indexBand (c.nbands.getD a 0) 4 g.toList = some i → ∀ iw : List Int, (∀ w ∈ iw, -(nb : Int) ≤ w ∧ w ≤ nb) →
        readG2Iw (g2Of o a ch i (2 * nb + 1)) iw = some (iw.map fun w => (List.range (2 * nf)).map fun v => (List.range (2 * nf)).map fun v' =>
          ∑ s ∈ sixSpins, weight K ch s * ((∑ b ∈ orb, (Y a s b (w - ((nba a : Int) - nb)) v v').getD 0) / (orb.card : K))) := by
  obtain ⟨o, h1, h2⟩ := run_file c ht f ans nf nb nba X h
  refine ⟨o, h1, ?_⟩
  intro a ha ch hch g orb i hr hk horb hi iw hiw
  rw [h2 a ha ch hch g orb i hr hk horb hi, (readG2Iw_writeG2 nf nb _ iw).1 hiw]
  congr 1
  apply List.map_congr_left
  intro w hw
  have hw' := hiw w hw
  have e : (((w + nb).toNat : Nat) : Int) - nba a = w - ((nba a : Int) - nb) := by omega
  simp only [hY, e]

/-! ### runs that end early -/

/-- C127. The program never changes what is at the output path: if something is there, it is there unchanged after the run, and the run is not
    reported as done, whatever configuration, input and answer. -/
theorem run_keeps_existing (c : Conf) (f : Option (InFile K)) (ans : Bool) (d : Disk K) (hd : d ≠ .absent) :
    (run c f ans d).2 = d ∧ (run c f ans d).1 ≠ .done := by
  unfold run
  split
  · exact ⟨rfl, by simp⟩
  · exact ⟨rfl, by simp⟩
  · split
    · exact ⟨rfl, by simp⟩
    · split
      · next e he =>
        refine ⟨rfl, ?_⟩
        unfold getGroups at he
        have : ∀ (l : List Nat) (f : InFile K), List.mapM (getGroups1 c f ans) l = .error e → e ≠ End.done := by
          intro l f
          induction l with
          | nil => intro h; cases h
          | cons a l ih =>
            intro h
            rw [List.mapM_cons] at h
            cases hg : getGroups1 c f ans a with
            | error e' =>
              rw [hg] at h
              have he' : e' = e := by injection h
              subst he'
              unfold getGroups1 at hg
              split at hg
              · split at hg
                · injection hg with hg; rw [← hg]; simp
                · split at hg
                  · cases hg
                  · injection hg with hg; rw [← hg]; simp
              · injection hg with hg; rw [← hg]; simp
            | ok v =>
              rw [hg] at h
              cases hm : List.mapM (getGroups1 c f ans) l with
              | error e' =>
                rw [hm] at h
                have he' : e' = e := by injection h
                subst he'
                exact ih hm
              | ok v' => rw [hm] at h; cases h
        exact this _ _ he
      · split
        · exact ⟨rfl, by simp⟩
        · cases d with
          | absent => exact absurd rfl hd
          | incomplete => exact ⟨rfl, by simp⟩
          | file o => exact ⟨rfl, by simp⟩

/-- C127. A run that raised after it had created the file leaves an incomplete file behind, and then no later run, even with a correct input, replaces
    it. -/
theorem run_blocked (c c' : Conf) (f f' : Option (InFile K)) (ans ans' : Bool) (d : Disk K) (h : (run c f ans d).2 = .incomplete) :
    (run c' f' ans' (run c f ans d).2).2 = .incomplete ∧ (run c' f' ans' (run c f ans d).2).1 ≠ .done := by
  rw [h]
  exact run_keeps_existing c' f' ans' .incomplete (by simp)

/-- C127. Whatever worm group is asked for, the box is taken from `worm-last`: without it no run succeeds, and nothing is written. -/
theorem run_needs_worm_last (c : Conf) (f : InFile K) (ans : Bool) (d : Disk K) (h : f.grp "worm-last" 1 = none) (hg : ∃ g, getGroups c f ans = .ok g)
    (hc : checkAll c = some true) : run c (some f) ans d = (.raised, d) := by
  obtain ⟨g, hg⟩ := hg
  unfold run
  have : getFbox c.target f = none := by unfold getFbox; rw [h]; rfl
  simp only [hc, hg, this]

theorem foldlM_mem {α β : Type} (f : β → α → Option β) : ∀ (l : List α) (o r : β), l.foldlM f o = some r → ∀ x ∈ l, ∃ p q, f p x = some q := by
  intro l
  induction l with
  | nil => intro o r _ x hx; simp at hx
  | cons a l ih =>
    intro o r h x hx
    rw [List.foldlM_cons] at h
    cases ha : f o a with
    | none => rw [ha] at h; simp at h
    | some q =>
      rw [ha] at h
      rcases List.mem_cons.mp hx with rfl | hx
      · exact ⟨o, q, ha⟩
      · exact ih q r h x hx

theorem mapM_mem {α β ε : Type} (f : α → Except ε β) : ∀ (l : List α) (r : List β), l.mapM f = .ok r →
    ∀ (i : Nat) (x : α), l[i]? = some x → ∃ y, f x = .ok y ∧ r[i]? = some y := by
  intro l
  induction l with
  | nil => intro r _ i x hx; simp at hx
  | cons a l ih =>
    intro r h i x hx
    rw [List.mapM_cons] at h
    cases ha : f a with
    | error e => rw [ha] at h; cases h
    | ok y =>
      rw [ha] at h
      cases hl : l.mapM f with
      | error e => rw [hl] at h; cases h
      | ok ys =>
        rw [hl] at h
        have hr : r = y :: ys := by injection h with h; exact h.symm
        subst hr
        cases i with
        | zero => simp at hx; subst hx; exact ⟨y, ha, rfl⟩
        | succ i => simpa using ih ys hl i x (by simpa using hx)

theorem mapM_opt_mem {α β : Type} (f : α → Option β) : ∀ (l : List α) (r : List β), l.mapM f = some r → ∀ x ∈ l, ∃ y ∈ r, f x = some y := by
  intro l
  induction l with
  | nil => intro r _ x hx; simp at hx
  | cons a l ih =>
    intro r h x hx
    rw [List.mapM_cons] at h
    cases ha : f a with
    | none => rw [ha] at h; simp at h
    | some y =>
      rw [ha] at h
      cases hl : l.mapM f with
      | none => rw [hl] at h; simp at h
      | some ys =>
        rw [hl] at h
        have hr : r = y :: ys := by injection h with h; exact h.symm
        subst hr
        rcases List.mem_cons.mp hx with rfl | hx
        · exact ⟨y, by simp, ha⟩
        · obtain ⟨y', h1, h2⟩ := ih ys hl x hx
          exact ⟨y', by simp [h1], h2⟩

theorem decode_one (nd : Nat) : decode nd 1 = some ((0, 0, 0, 0), (0, 0, 0, 0)) := by
  unfold decode index2componentGeneral
  have : peel (2 * nd) 4 (1 - 1) = [0, 0, 0, 0] := by simp [peel]
  rw [this]
  rfl

/-- C127. An even number of bosonic frequencies: the program looks for one more than there are, so it never finishes (and, at a free path, leaves an
    incomplete file). -/
theorem run_even_raises (c : Conf) (f : InFile K) (ans : Bool) (d : Disk K) (ht : c.target ≠ .b1) (hw : c.worm = "worm-last") (hn : 0 < c.nineq)
    (nd : Nat) (hnd : c.nbands[0]? = some nd) (hnd0 : 0 < nd) (sy : List (List Int)) (hsy : c.sym[0]? = some sy) (hv : Valid sy nd)
    (gl : List (Int × Arr K)) (hgl : f.grp "worm-last" 1 = some gl) (e : Int × Arr K) (he : gl.find? (fun g => g.1 == 1) = some e) (m : Nat)
    (hm : e.2.shape.getLast? = some (2 * m)) : (run c (some f) ans d).1 ≠ .done := by
  have he1 : e.1 = 1 := by simpa using List.find?_some he
  have hmem := List.mem_of_find?_eq_some he
  intro hdone
  by_cases hd : d = .absent
  swap
  · exact (run_keeps_existing c (some f) ans d hd).2 hdone
  subst hd
  unfold run at hdone
  cases hc : checkAll c with
  | none => rw [hc] at hdone; simp at hdone
  | some b =>
    cases b with
    | false => rw [hc] at hdone; simp at hdone
    | true =>
      rw [hc] at hdone
      cases hg : getGroups c f ans with
      | error e' =>
        have := (run_keeps_existing c (some f) ans .incomplete (by simp)).2
        unfold run at this
        simp only [hc, hg] at this hdone
        exact this hdone
      | ok groups =>
        cases hbx : getFbox c.target f with
        | none => simp [hg, hbx] at hdone
        | some box =>
          simp only [hg, hbx] at hdone
          split at hdone
          · simp at hdone
          · cases hl : symLoop c box.2 groups (initOutput c box groups) with
            | none => rw [hl] at hdone; simp at hdone
            | some o =>
              have hb2 : box.2 = m := by
                unfold getFbox at hbx
                rw [hgl, Option.bind_some, he, Option.bind_some] at hbx
                split at hbx
                · next hbt _ => exact absurd hbt ht
                · next nf nb _ hs => rw [hs] at hm; simp at hm; injection hbx with hbx; rw [← hbx]; simp [hm]
                · next x nf nb _ hs => rw [hs] at hm; simp at hm; injection hbx with hbx; rw [← hbx]; simp [hm]
                · simp at hbx
              obtain ⟨gs, hgs, hgs0⟩ := mapM_mem _ _ _ hg 0 0 (by simp [hn])
              have hgm : ∃ g ∈ gs, g.spins = (0, 0, 0, 0) ∧ g.bands = (0, 0, 0, 0) ∧ g.arr = e.2 := by
                unfold getGroups1 at hgs
                rw [hw, hgl, hnd] at hgs
                simp only at hgs
                split at hgs
                · cases hgs
                · split at hgs
                  · next l hl' =>
                    injection hgs with hgs
                    subst hgs
                    obtain ⟨y, hy, hye⟩ := mapM_opt_mem _ _ _ hl' e hmem
                    rw [he1, decode_one nd, Option.map_some] at hye
                    injection hye with hye
                    exact ⟨y, hy, by rw [← hye], by rw [← hye], by rw [← hye]⟩
                  · cases hgs
              obtain ⟨g, hgm, hs, hbd, harr⟩ := hgm
              unfold symLoop at hl
              obtain ⟨o1, o2, h12⟩ := foldlM_mem _ _ _ _ hl 0 (by simp [hn])
              simp only [hgs0, Option.bind_some] at h12
              obtain ⟨o3, o4, h34⟩ := foldlM_mem _ _ _ _ h12 "dens" (by simp)
              unfold symAtomChannel at h34
              simp only [hsy, hnd, Option.bind_some] at h34
              obtain ⟨o5, o6, h56⟩ := foldlM_mem _ _ _ _ h34 g hgm
              have hr0 : InRange nd (0, 0, 0, 0) := by simp [InRange, hnd0]
              have hk0 : Kan (0, 0, 0, 0) := by simp [Kan]
              obtain ⟨act, l, hsg, -⟩ := getSymgroups_ok "dens" (.inl rfl) sy nd hv (0, 0, 0, 0) (0, 0, 0, 0) (by decide) hr0 hk0
              have hact : act = .plus := by
                unfold getSymgroups at hsg
                have : actionOf "dens" (0, 0, 0, 0) = some .plus := rfl
                rw [this, Option.bind_some] at hsg
                cases h1 : symBands sy (0, 0, 0, 0) with
                | none => rw [h1] at hsg; simp at hsg
                | some lb =>
                  rw [h1, Option.bind_some] at hsg
                  cases h2 : lb.mapM (fun b => component2indexBand nd 4 b.toList) with
                  | none => rw [h2] at hsg; simp at hsg
                  | some lg => rw [h2, Option.map_some] at hsg; injection hsg with hsg; exact (congrArg Prod.fst hsg).symm
              have hne : ∃ x, x ∈ l := by
                obtain ⟨lb, h1, -, h3⟩ := symBands_spec sy nd hv (0, 0, 0, 0) hr0 hk0
                have hin : ((0, 0, 0, 0) : Q4) ∈ lb := (h3 _).mpr (equiv4_refl sy nd hv _ hr0)
                unfold getSymgroups at hsg
                have : actionOf "dens" (0, 0, 0, 0) = some .plus := rfl
                rw [this, Option.bind_some, h1, Option.bind_some] at hsg
                cases h2 : lb.mapM (fun b => component2indexBand nd 4 b.toList) with
                | none => rw [h2] at hsg; simp at hsg
                | some lg =>
                  rw [h2, Option.map_some] at hsg
                  injection hsg with hsg
                  have hl' : lg = l := congrArg Prod.snd hsg
                  obtain ⟨y, hy, -⟩ := mapM_opt_mem _ _ _ h2 _ hin
                  exact ⟨y, hl' ▸ hy⟩
              obtain ⟨x, hx⟩ := hne
              rw [hs, hbd, hsg, Option.bind_some, harr, hact] at h56
              unfold readAndAddFile at h56
              have hp : (prefactor "dens" : Option K) = some 2 := rfl
              rw [hp, Option.bind_some] at h56
              have hnb : nBlocks c.target box.2 = 2 * m + 1 := by
                rw [hb2]
                cases htt : c.target with
                | b1 => exact absurd htt ht
                | fb2 => rfl
                | ffb3 => rfl
              obtain ⟨o7, o8, h78⟩ := foldlM_mem _ _ _ _ h56 (2 * m) (by simp [hnb])
              obtain ⟨o9, o10, h90⟩ := foldlM_mem _ _ _ _ h78 x hx
              unfold addBlock at h90
              have hnone : ∀ dd : K, slice c.target (scaled c.target e.2 dd) (2 * m) = none := by
                intro dd
                unfold slice
                have hss : (scaled c.target e.2 dd).shape = e.2.shape := rfl
                rw [hss]
                split
                · next hbt => exact absurd hbt ht
                · next n1 n2 hs' => rw [hs'] at hm; simp at hm; simp [hm]
                · next n1 n2 n3 hs' => rw [hs'] at hm; simp at hm; simp [hm]
                · rfl
              rw [hnone] at h90
              simp at h90

/-! ### one-particle target -/

/-- symmetrize.py:271-290 `main` for '1freq_f' as far as the output path is concerned: the input is copied over whatever is there, then the groups are
    renamed; `hasGf`: the file has `dmft-last/ineq-001/giwk_obj` (otherwise KeyError).  Content abstracted. -/
def run1f (check : Option Bool) (infile hasGf : Bool) (d : Disk K) : End × Disk K :=
  match check with
  | none => (.raised, d)
  | some false => (.exited, d)
  | some true => if infile then (if hasGf then (.done, .incomplete) else (.raised, .incomplete)) else (.raised, d)

omit [Field K] in
/-- C127. In contrast to the other targets the one-particle target replaces whatever is at the output path, also when it raises because the file lacks
    the group it looks for. -/
theorem run1f_overwrites (hasGf : Bool) (d : Disk K) : ∀ o : OutFile K, (run1f (some true) true hasGf d).2 = (run1f (some true) true hasGf (.file o)).2 ∧
    (run1f (some true) true hasGf (.file o)).2 ≠ .file o := by
  intro o
  cases hasGf <;> simp [run1f]

/-! ### concrete inputs -/

/-- a single-band three-frequency file with the six components of the worm sampling, two fermionic frequencies on each side and `n w` bosonic ones in
    group `w`; the value of component `n` is `n` everywhere, with a NaN at the first frequencies -/
def exFile (n : String → Nat) : InFile K where
  axes := true
  grp := fun w a => if a = 1 then
      some ([1, 4, 7, 10, 13, 16].map fun g : Int => (g, ⟨[4, 4, n w], fun ix => if ix = [0, 0, 0] then none else some (g : K)⟩))
    else none

/-- symmetrize.py:325 (and cli/sym1b.py:20-22, where the worm group is `worm-last`): the configuration of the command line program -/
def exConf (w : String) : Conf := ⟨.ffb3, 1, [1, 1], [[[1]]], w⟩

/-- the number of the group of a spin combination of a single band -/
def exGroup (s : Q4) : K := 1 + 8 * s.1 + 4 * s.2.1 + 2 * s.2.2.1 + s.2.2.2

/-- the hypotheses of `run_value` and `run_then_read` are met by a concrete file, with an odd bosonic axis; also if the group asked for has more
    bosonic frequencies than `worm-last` -/
theorem exInput (w : String) (k : Nat) (hk : 1 ≤ k) (n : String → Nat) (h1 : n "worm-last" = 3) (h2 : n w = 2 * k + 1) :
    InputOk (exConf w) (exFile n : InFile K) 2 1 (fun _ => k) (fun _ s _ ix => if ix = [0, 0, 0] then none else some (exGroup s)) where
  nbands := by simp [exConf]
  sym := by simp [exConf]
  valid := by
    intro a ha
    have : a = 0 := by simp only [exConf] at ha; omega
    subst this
    exact valid_one
  axes := fun _ => rfl
  box := ⟨_, rfl, ⟨(1, ⟨[4, 4, n "worm-last"], fun ix => if ix = [0, 0, 0] then none else some 1⟩), by simp, rfl⟩, by
    intro e he _
    simp at he
    rcases he with rfl | rfl | rfl | rfl | rfl | rfl <;> simp [h1, fullShape, exConf]⟩
  le := fun a _ => ⟨hk, fun h => by simp [exConf] at h⟩
  comps := by
    intro a ha
    have : a = 0 := by simp only [exConf] at ha; omega
    subst this
    refine ⟨_, [(0, 0, 0, 0), (0, 0, 1, 1), (0, 1, 1, 0), (1, 0, 0, 1), (1, 1, 0, 0), (1, 1, 1, 1)].map fun s => (s, ((0, 0, 0, 0) : Q4)), rfl, ?_, by decide, ?_, ?_⟩
    · simp only [List.map_cons, List.map_nil]
      have e1 : (exConf w).nbands.getD 0 0 = 1 := rfl
      rw [e1]
      decide
    · intro sb
      have e1 : (exConf w).nbands.getD 0 0 = 1 := rfl
      rw [e1, ← one_band_components sb]
      simp only [List.mem_map, Finset.mem_toList]
      constructor <;>
      · rintro ⟨s, hs, rfl⟩
        refine ⟨s, ?_, rfl⟩
        revert hs
        simp [sixSpins]
    · intro e he
      refine ⟨?_, ?_⟩
      · simp at he
        rcases he with rfl | rfl | rfl | rfl | rfl | rfl <;> simp [h2, fullShape, exConf]
      · intro sb hsb ix
        have d1 : decode 1 1 = some ((0, 0, 0, 0), (0, 0, 0, 0)) := by decide
        have d4 : decode 1 4 = some ((0, 0, 1, 1), (0, 0, 0, 0)) := by decide
        have d7 : decode 1 7 = some ((0, 1, 1, 0), (0, 0, 0, 0)) := by decide
        have d10 : decode 1 10 = some ((1, 0, 0, 1), (0, 0, 0, 0)) := by decide
        have d13 : decode 1 13 = some ((1, 1, 0, 0), (0, 0, 0, 0)) := by decide
        have d16 : decode 1 16 = some ((1, 1, 1, 1), (0, 0, 0, 0)) := by decide
        have e1 : (exConf w).nbands.getD 0 0 = 1 := rfl
        rw [e1] at hsb
        simp at he
        rcases he with rfl | rfl | rfl | rfl | rfl | rfl <;> simp only [d1, d4, d7, d10, d13, d16, Option.some.injEq] at hsb <;> subst hsb <;>
          simp [exGroup] <;> norm_num

/-- the concrete run ends, and its output is read back: density channel `(1 + 4 + 13 + 16) / 2 = 17`, zero where the data were NaN -/
example : ∃ o, run (exConf "worm-last") (some (exFile fun _ => 3 : InFile ℚ)) false .absent = (.done, .file o) ∧
    readG2Full (g2Of o 0 "dens" 1 3) = (List.range 3).map fun w => (List.range 4).map fun v => (List.range 4).map fun v' =>
      if w = 0 ∧ v = 0 ∧ v' = 0 then 0 else 17 := by
  obtain ⟨o, h1, h2⟩ := run_then_read (exConf "worm-last") rfl (exFile (K := ℚ) fun _ => 3) false 2 1 (fun _ => 1) _ (exInput _ 1 (by decide) _ rfl rfl)
  refine ⟨o, h1, ?_⟩
  rw [h2 0 (by decide) "dens" (.inl rfl) (0, 0, 0, 0) {(0, 0, 0, 0)} 1 (by simp [InRange, exConf]) (by simp [Kan]) ?_ (by decide)]
  · apply List.map_congr_left
    intro w _
    apply List.map_congr_left
    intro v _
    apply List.map_congr_left
    intro v' _
    by_cases h : w = 0 ∧ v = 0 ∧ v' = 0
    · obtain ⟨rfl, rfl, rfl⟩ := h
      simp
    · have h' : ¬ (v = 0 ∧ v' = 0 ∧ w = 0) := by tauto
      rw [if_neg h]
      simp [h', sixSpins, weight, exGroup]
      norm_num
  · intro t
    have e1 : (exConf "worm-last").sym.getD 0 [] = [[1]] := rfl
    obtain ⟨t1, t2, t3, t4⟩ := t
    rw [e1, Finset.mem_singleton]
    simp only [Equiv4, cls, Py.get?, Prod.mk.injEq]
    simp
    omega

/-- with an even bosonic axis the same run fails and leaves a file that no later run replaces -/
example (ans : Bool) (d : Disk ℚ) : (run (exConf "worm-last") (some (exFile fun _ => 4)) ans d).1 ≠ .done :=
  run_even_raises (exConf "worm-last") (exFile fun _ => 4) ans d (by decide) rfl (by decide) 1 rfl (by decide) [[1]] rfl valid_one _ rfl _ rfl 2 rfl

/-- `worm-001` has five bosonic frequencies, `worm-last` three: the hypotheses of `run_box_off_centre` are met with `nba 0 = 2 > nb = 1` -/
example : InputOk (exConf "worm-001") (exFile fun w => if w = "worm-001" then 5 else 3 : InFile ℚ) 2 1 (fun _ => 2)
    (fun _ s _ ix => if ix = [0, 0, 0] then none else some (exGroup s)) := exInput _ 2 (by decide) _ rfl rfl

/-- without `worm-last` nothing is written -/
example (d : Disk ℚ) : run (exConf "worm-001") (some { exFile (K := ℚ) (fun _ => 3) with grp := fun w a => if w = "worm-last" then none else (exFile (K := ℚ) fun _ => 3).grp w a }) true d =
    (.raised, d) :=
  run_needs_worm_last _ _ _ _ rfl ⟨_, rfl⟩ (by decide)

end DGA.Sym
