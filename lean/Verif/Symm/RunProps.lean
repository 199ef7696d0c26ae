/-
  C127: what a run of the symmetrisation program leaves on disk.
-/
import Verif.Symm.Run
import Mathlib.Order.Interval.Finset.Basic
import Mathlib.Data.Int.Interval
import Mathlib.Tactic.Linarith
import Mathlib.Tactic.Zify

namespace DGA.Sym

variable {K : Type} [Field K]

/-! ### specification -/

/-- shape of the data of a component with `2 nf` fermionic and `2 nb + 1` bosonic frequencies -/
def fullShape (t : Target) (nf nb : Nat) : List Nat :=
  match t with
  | .b1 => [2 * nb + 1]
  | .fb2 => [2 * nf, 2 * nb + 1]
  | .ffb3 => [2 * nf, 2 * nf, 2 * nb + 1]

/-- frequencies of the entry `ix` of the dataset with bosonic index `w`: '2freq' data are stored per bosonic frequency, '3freq' data per
    bosonic frequency with the fermionic axes exchanged -/
def place (t : Target) (w : Nat) (ix : List Nat) : List Nat :=
  match t with
  | .b1 => ix
  | .fb2 => ix ++ [w]
  | .ffb3 => ix.reverse ++ [w]

/-- what an entry counts: a NaN of three-frequency data counts as zero -/
def nanv (t : Target) (x : Option K) : Option K :=
  match x with
  | some x => some x
  | none => if t = .ffb3 then some 0 else none

/-! ### one dataset -/

def Shp (o : OutFile K) (sh : List Nat) : Prop := ∀ k A, o k = some A → A.shape = sh
def Dom (o o' : OutFile K) : Prop := ∀ k, (o' k).isSome = (o k).isSome
/-- the entries `ix` of the datasets of one atom, channel and bosonic index are the numbers `p` -/
def R (a : Nat) (ch : String) (w : Nat) (ix : List Nat) (o : OutFile K) (p : Out K) : Prop :=
  ∀ g, (o (a, ch, w, g)).map (fun A => A.at_ ix) = (p g).map some

omit [Field K] in
theorem R_congr {a : Nat} {ch : String} {w : Nat} {ix : List Nat} {o o' : OutFile K} {p : Out K} (h : ∀ g, o' (a, ch, w, g) = o (a, ch, w, g))
    (hR : R a ch w ix o p) : R a ch w ix o' p := fun g => by rw [h]; exact hR g

theorem addArr_ok (o : OutFile K) (k : Key) (s : K) (B : Arr K) (sh : List Nat) (hS : Shp o sh) (hk : (o k).isSome) (hB : B.shape = sh) :
    ∃ o', addArr o k s B = some o' ∧ Shp o' sh ∧ Dom o o' ∧ (∀ k', k' ≠ k → o' k' = o k') ∧
      ∀ A, o k = some A → ∃ A', o' k = some A' ∧ ∀ ix x y, A.at_ ix = some x → B.at_ ix = some y → A'.at_ ix = some (x + s * y) := by
  obtain ⟨A, hA⟩ := Option.isSome_iff_exists.mp hk
  have hAs := hS k A hA
  refine ⟨_, by simp only [addArr, hA, Option.bind_some, hAs, hB, if_true]; rfl, ?_, ?_, ?_, ?_⟩
  · intro k' A' h'
    by_cases hkk : k' = k
    · simp only [hkk, if_true, Option.some.injEq] at h'
      subst h'; rfl
    · simp only [hkk, if_false] at h'
      exact hS k' A' h'
  · intro k'
    by_cases hkk : k' = k
    · subst hkk; simp [hA]
    · simp [hkk]
  · intro k' hkk; simp [hkk]
  · intro A1 h1
    rw [hA] at h1
    injection h1 with h1
    subst h1
    refine ⟨_, by simp only [if_true]; rfl, ?_⟩
    intro ix x y hx hy
    simp [hx, hy]

theorem addBlock_ok (t : Target) (A B : Arr K) (act : Action) (o : OutFile K) (a : Nat) (ch : String) (w : Nat) (g : Int) (sh : List Nat)
    (hS : Shp o sh) (hk : (o (a, ch, w, g)).isSome) (hsl : slice t A w = some B) (hB : B.shape = sh) :
    ∃ o', addBlock t A act o (a, ch, w, g) = some o' ∧ Shp o' sh ∧ Dom o o' ∧ (∀ k', k' ≠ (a, ch, w, g) → o' k' = o k') ∧
      ∀ ix z p, B.at_ ix = some z → R a ch w ix o p → ∃ p', applyAct act z p g = some p' ∧ R a ch w ix o' p' := by
  obtain ⟨A0, hA0⟩ := Option.isSome_iff_exists.mp hk
  have main : ∀ s : K, (∀ z : K, ∀ p : Out K, applyAct act z p g = addAt p g (s * z)) →
      (∀ o : OutFile K, addBlock t A act o (a, ch, w, g) = (slice t A w).bind fun B => addArr o (a, ch, w, g) s B) →
      ∃ o', addBlock t A act o (a, ch, w, g) = some o' ∧ Shp o' sh ∧ Dom o o' ∧ (∀ k', k' ≠ (a, ch, w, g) → o' k' = o k') ∧
      ∀ ix z p, B.at_ ix = some z → R a ch w ix o p → ∃ p', applyAct act z p g = some p' ∧ R a ch w ix o' p' := by
    intro s h1 h2
    obtain ⟨o', e1, e2, e3, e4, e5⟩ := addArr_ok o (a, ch, w, g) s B sh hS hk hB
    refine ⟨o', by rw [h2, hsl]; exact e1, e2, e3, e4, ?_⟩
    intro ix z p hz hR
    obtain ⟨A', hA', hv⟩ := e5 A0 hA0
    have hg := hR g
    rw [hA0, Option.map_some] at hg
    cases hp : p g with
    | none => rw [hp] at hg; simp at hg
    | some y =>
      rw [hp, Option.map_some] at hg
      injection hg with hg
      refine ⟨fun h => if h = g then some (y + s * z) else p h, by rw [h1, addAt, hp]; rfl, ?_⟩
      intro g'
      by_cases hgg : g' = g
      · subst hgg
        simp only [if_true, Option.map_some]
        rw [hA', Option.map_some, hv ix y z hg hz]
      · simp only [hgg, if_false]
        rw [e4 _ (by simp [hgg])]
        exact hR g'
  cases act with
  | plus => exact main 1 (fun z p => by rw [one_mul]; rfl) (fun _ => rfl)
  | minus => exact main (-1) (fun z p => by rw [neg_one_mul]; rfl) (fun _ => rfl)
  | skip => exact ⟨o, rfl, hS, fun _ => rfl, fun _ _ => rfl, fun ix z p _ hR => ⟨p, rfl, hR⟩⟩

theorem groups_ok (t : Target) (A B : Arr K) (act : Action) (a : Nat) (ch : String) (w : Nat) (sh : List Nat) (hsl : slice t A w = some B)
    (hB : B.shape = sh) : ∀ (l : List Int) (o : OutFile K), Shp o sh → (∀ g ∈ l, (o (a, ch, w, g)).isSome) →
    ∃ o', l.foldlM (fun o g => addBlock t A act o (a, ch, w, g)) o = some o' ∧ Shp o' sh ∧ Dom o o' ∧
      (∀ k : Key, (k.1, k.2.1, k.2.2.1) ≠ (a, ch, w) → o' k = o k) ∧
      ∀ ix z p, B.at_ ix = some z → R a ch w ix o p → ∃ p', l.foldlM (applyAct act z) p = some p' ∧ R a ch w ix o' p' := by
  intro l
  induction l with
  | nil => intro o hS _; exact ⟨o, rfl, hS, fun _ => rfl, fun _ _ => rfl, fun ix z p _ hR => ⟨p, rfl, hR⟩⟩
  | cons g l ih =>
    intro o hS hd
    obtain ⟨o1, e1, e2, e3, e4, e5⟩ := addBlock_ok t A B act o a ch w g sh hS (hd g (by simp)) hsl hB
    obtain ⟨o2, f1, f2, f3, f4, f5⟩ := ih o1 e2 (fun g' h' => by rw [e3]; exact hd g' (by simp [h']))
    refine ⟨o2, by rw [List.foldlM_cons, e1]; exact f1, f2, fun k => (f3 k).trans (e3 k), ?_, ?_⟩
    · intro k hk
      rw [f4 k hk]
      apply e4
      rintro rfl
      exact hk rfl
    · intro ix z p hz hR
      obtain ⟨p1, q1, q2⟩ := e5 ix z p hz hR
      obtain ⟨p2, r1, r2⟩ := f5 ix z p1 hz q2
      exact ⟨p2, by rw [List.foldlM_cons, q1]; exact r1, r2⟩

theorem blocks_ok (t : Target) (A : Arr K) (act : Action) (a : Nat) (ch : String) (sh : List Nat) (l : List Int) :
    ∀ (ws : List Nat) (o : OutFile K), ws.Nodup → (∀ w ∈ ws, ∃ B, slice t A w = some B ∧ B.shape = sh) → Shp o sh →
    (∀ w ∈ ws, ∀ g ∈ l, (o (a, ch, w, g)).isSome) →
    ∃ o', ws.foldlM (fun o w => l.foldlM (fun o g => addBlock t A act o (a, ch, w, g)) o) o = some o' ∧ Shp o' sh ∧ Dom o o' ∧
      (∀ k : Key, (k.1, k.2.1) ≠ (a, ch) → o' k = o k) ∧ (∀ k : Key, k.2.2.1 ∉ ws → o' k = o k) ∧
      ∀ w ∈ ws, ∀ B, slice t A w = some B → ∀ ix z p, B.at_ ix = some z → R a ch w ix o p →
        ∃ p', l.foldlM (applyAct act z) p = some p' ∧ R a ch w ix o' p' := by
  intro ws
  induction ws with
  | nil => intro o _ _ hS _; exact ⟨o, rfl, hS, fun _ => rfl, fun _ _ => rfl, fun _ _ => rfl, by simp⟩
  | cons w ws ih =>
    intro o hn hsl hS hd
    obtain ⟨hw, hn⟩ := List.nodup_cons.mp hn
    obtain ⟨B, hB, hBs⟩ := hsl w (by simp)
    obtain ⟨o1, e1, e2, e3, e4, e5⟩ := groups_ok t A B act a ch w sh hB hBs l o hS (hd w (by simp))
    obtain ⟨o2, f1, f2, f3, f4, f5, f6⟩ := ih o1 hn (fun w' h' => hsl w' (by simp [h'])) e2
      (fun w' h' g hg => by rw [e3]; exact hd w' (by simp [h']) g hg)
    refine ⟨o2, by rw [List.foldlM_cons, e1]; exact f1, f2, fun k => (f3 k).trans (e3 k), ?_, ?_, ?_⟩
    · intro k hk
      rw [f4 k hk, e4 k]
      intro h
      apply hk
      rw [Prod.mk.injEq, Prod.mk.injEq] at h
      rw [h.1, h.2.1]
    · intro k hk
      rw [List.mem_cons, not_or] at hk
      rw [f5 k hk.2, e4 k]
      intro h
      rw [Prod.mk.injEq, Prod.mk.injEq] at h
      exact hk.1 h.2.2
    · intro w' hw' B' hB' ix z p hz hR
      rcases List.mem_cons.mp hw' with rfl | hw'
      · rw [hB] at hB'
        injection hB' with hB'
        subst hB'
        obtain ⟨p1, q1, q2⟩ := e5 ix z p hz hR
        exact ⟨p1, q1, R_congr (fun g => f5 _ hw) q2⟩
      · refine f6 w' hw' B' hB' ix z p hz (R_congr (fun g => e4 _ ?_) hR)
        intro h
        rw [Prod.mk.injEq, Prod.mk.injEq] at h
        exact hw (h.2.2 ▸ hw')

theorem slice_scaled (t : Target) (A : Arr K) (nf nb nba : Nat) (hA : A.shape = fullShape t nf nba) (hle : nb ≤ nba) (hb1 : t = .b1 → nba = nb) (d : K) (w : Nat) (hw : w < nBlocks t nb) :
    ∃ B, slice t (scaled t A d) w = some B ∧ B.shape = outShape t (nf, nb) ∧
      ∀ ix, B.at_ ix = (nanv t (A.at_ (place t w ix))).map (· / d) := by
  have key : ∀ x : Option K, (match x with | some x => some (x / d) | none => if t = .ffb3 then some 0 else none) = (nanv t x).map (· / d) := by
    intro x
    cases x with
    | some x => rfl
    | none => simp only [nanv]; split <;> simp
  cases t with
  | b1 => exact ⟨_, rfl, by rw [hb1 rfl] at hA; exact hA, fun ix => key _⟩
  | fb2 =>
    have h2 : (scaled .fb2 A d).shape = [2 * nf, 2 * nba + 1] := hA
    refine ⟨_, by simp only [slice, h2]; rw [if_pos (lt_of_lt_of_le (show w < 2 * nb + 1 from hw) (by omega))], rfl, fun ix => key _⟩
  | ffb3 =>
    have h2 : (scaled .ffb3 A d).shape = [2 * nf, 2 * nf, 2 * nba + 1] := hA
    refine ⟨_, by simp only [slice, h2]; rw [if_pos (lt_of_lt_of_le (show w < 2 * nb + 1 from hw) (by omega))], rfl, fun ix => key _⟩

theorem prefactor_some (ch : String) (h : ch = "dens" ∨ ch = "magn") : ∃ p : K, prefactor ch = some p := by
  rcases h with rfl | rfl
  · exact ⟨2, rfl⟩
  · exact ⟨4, rfl⟩

theorem getSymgroups_ok (ch : String) (hch : ch = "dens" ∨ ch = "magn") (sy : List (List Int)) (nd : Nat) (hv : Valid sy nd) (s b : Q4)
    (hs : s ∈ sixSpins) (hr : InRange nd b) (hk : Kan b) :
    ∃ act l, getSymgroups ch s b sy nd = some (act, l) ∧ ∀ g ∈ l, ∃ t, InRange nd t ∧ Kan t ∧ g = idx nd t := by
  obtain ⟨l, hl, hln, hlm⟩ := symBands_spec sy nd hv b hr hk
  have ha : ∃ a, actionOf ch s = some a := by
    simp only [sixSpins, Finset.mem_insert, Finset.mem_singleton] at hs
    rcases hch with rfl | rfl <;> rcases hs with rfl | rfl | rfl | rfl | rfl | rfl <;> exact ⟨_, rfl⟩
  obtain ⟨a, ha⟩ := ha
  have hidx : (l.mapM fun b => component2indexBand nd 4 b.toList) = some (l.map (idx nd)) := by
    clear hl hln hlm
    induction l with
    | nil => rfl
    | cons c l ihl => rw [List.mapM_cons, idx_eq, ihl]; rfl
  refine ⟨a, l.map (idx nd), ?_, ?_⟩
  · unfold getSymgroups
    rw [ha, Option.bind_some, hl, Option.bind_some, hidx, Option.map_some]
  · intro g hg
    rw [List.mem_map] at hg
    obtain ⟨t, ht, rfl⟩ := hg
    have := (hlm t).mp ht
    exact ⟨t, equiv4_range sy nd hv b t hr this, equiv4_kan sy b t hk this, rfl⟩

/-- one atom and one channel: the file after the loop over the components holds, entry by entry, what the symmetrisation of single numbers gives -/
theorem atomChannel_ok (c : Conf) (nf nb nba a nd : Nat) (hle : nb ≤ nba) (hb1 : c.target = .b1 → nba = nb) (sy : List (List Int)) (ch : String) (hch : ch = "dens" ∨ ch = "magn")
    (hnd : c.nbands[a]? = some nd) (hsy : c.sym[a]? = some sy) (hv : Valid sy nd) (gs : List (Grp K))
    (hg : ∀ g ∈ gs, g.spins ∈ sixSpins ∧ InRange nd g.bands ∧ Kan g.bands ∧ g.arr.shape = fullShape c.target nf nba)
    (o : OutFile K) (hS : Shp o (outShape c.target (nf, nb)))
    (hd : ∀ w < nBlocks c.target nb, ∀ t, InRange nd t → Kan t → (o (a, ch, w, idx nd t)).isSome) :
    ∃ o', symAtomChannel c nb a gs o ch = some o' ∧ Shp o' (outShape c.target (nf, nb)) ∧ Dom o o' ∧
      (∀ k : Key, (k.1, k.2.1) ≠ (a, ch) → o' k = o k) ∧
      ∀ w < nBlocks c.target nb, ∀ ix (V : Q4 → Q4 → K),
        (∀ g ∈ gs, nanv c.target (g.arr.at_ (place c.target w ix)) = some (V g.spins g.bands)) →
        ∀ p, R a ch w ix o p → ∃ p', symmetrizeChannel ch sy nd (gs.map fun g => ⟨g.spins, g.bands, V g.spins g.bands⟩) p = some p' ∧
          R a ch w ix o' p' := by
  unfold symAtomChannel
  simp only [hnd, hsy, Option.bind_some]
  induction gs generalizing o with
  | nil => exact ⟨o, rfl, hS, fun _ => rfl, fun _ _ => rfl, fun w _ ix V _ p hR => ⟨p, rfl, hR⟩⟩
  | cons g gs ih =>
    obtain ⟨hs, hr, hk, hsh⟩ := hg g (by simp)
    obtain ⟨act, l, hl, hlm⟩ := getSymgroups_ok ch hch sy nd hv g.spins g.bands hs hr hk
    obtain ⟨p0, hp0⟩ := prefactor_some (K := K) ch hch
    obtain ⟨o1, e1, e2, e3, e4, -, e6⟩ := blocks_ok c.target (scaled c.target g.arr (p0 * (l.length : K))) act a ch (outShape c.target (nf, nb)) l
      (List.range (nBlocks c.target nb)) o List.nodup_range
      (fun w hw => by
        obtain ⟨B, h1, h2, -⟩ := slice_scaled c.target g.arr nf nb nba hsh hle hb1 (p0 * (l.length : K)) w (List.mem_range.mp hw)
        exact ⟨B, h1, h2⟩) hS
      (fun w hw g' hg' => by
        obtain ⟨t, h1, h2, rfl⟩ := hlm g' hg'
        exact hd w (List.mem_range.mp hw) t h1 h2)
    obtain ⟨o2, f1, f2, f3, f4, f5⟩ := ih (fun g' h' => hg g' (by simp [h'])) o1 e2 (fun w hw t h1 h2 => by rw [e3]; exact hd w hw t h1 h2)
    refine ⟨o2, ?_, f2, fun k => (f3 k).trans (e3 k), fun k hk' => (f4 k hk').trans (e4 k hk'), ?_⟩
    · rw [List.foldlM_cons, hl, Option.bind_some]
      have : readAndAddFile c.target nb a ch g.arr act l o = some o1 := by
        unfold readAndAddFile; rw [hp0, Option.bind_some]; exact e1
      rw [this]
      exact f1
    · intro w hw ix V hV p hR
      obtain ⟨B, h1, h2, h3⟩ := slice_scaled c.target g.arr nf nb nba hsh hle hb1 (p0 * (l.length : K)) w hw
      have hz : B.at_ ix = some (V g.spins g.bands / (p0 * (l.length : K))) := by
        rw [h3, hV g (by simp)]; rfl
      obtain ⟨p1, q1, q2⟩ := e6 w (List.mem_range.mpr hw) B h1 ix _ p hz hR
      obtain ⟨p2, r1, r2⟩ := f5 w hw ix V (fun g' h' => hV g' (by simp [h'])) p1 q2
      refine ⟨p2, ?_, r2⟩
      unfold symmetrizeChannel at r1 ⊢
      rw [List.map_cons, List.foldlM_cons]
      simp only [hl, Option.bind_some]
      have : readAndAdd p ch (V g.spins g.bands) act l = some p1 := by
        unfold readAndAdd; rw [hp0, Option.bind_some]; exact q1
      rw [this]
      exact r1

/-! ### the loop over atoms and channels -/

/-- what the loop needs to know about the components of an atom -/
def GoodAtom (c : Conf) (nf nb nba : Nat) (a nd : Nat) (sy : List (List Int)) (gs : List (Grp K)) : Prop :=
  c.nbands[a]? = some nd ∧ c.sym[a]? = some sy ∧ Valid sy nd ∧ nb ≤ nba ∧ (c.target = .b1 → nba = nb) ∧
    ∀ g ∈ gs, g.spins ∈ sixSpins ∧ InRange nd g.bands ∧ Kan g.bands ∧ g.arr.shape = fullShape c.target nf nba

theorem channels_ok (c : Conf) (nf nb nba a nd : Nat) (sy : List (List Int)) (gs : List (Grp K)) (hg : GoodAtom c nf nb nba a nd sy gs) :
    ∀ (chs : List String), chs.Nodup → (∀ ch ∈ chs, ch = "dens" ∨ ch = "magn") → ∀ (o : OutFile K), Shp o (outShape c.target (nf, nb)) →
    (∀ ch ∈ chs, ∀ w < nBlocks c.target nb, ∀ t, InRange nd t → Kan t → (o (a, ch, w, idx nd t)).isSome) →
    ∃ o', chs.foldlM (fun o ch => symAtomChannel c nb a gs o ch) o = some o' ∧ Shp o' (outShape c.target (nf, nb)) ∧ Dom o o' ∧
      (∀ k : Key, k.1 ≠ a → o' k = o k) ∧ (∀ k : Key, k.2.1 ∉ chs → o' k = o k) ∧
      ∀ ch ∈ chs, ∀ w < nBlocks c.target nb, ∀ ix (V : Q4 → Q4 → K),
        (∀ g ∈ gs, nanv c.target (g.arr.at_ (place c.target w ix)) = some (V g.spins g.bands)) →
        ∀ p, R a ch w ix o p → ∃ p', symmetrizeChannel ch sy nd (gs.map fun g => ⟨g.spins, g.bands, V g.spins g.bands⟩) p = some p' ∧
          R a ch w ix o' p' := by
  obtain ⟨hnd, hsy, hv, hle, hb1, hgs⟩ := hg
  intro chs
  induction chs with
  | nil => intro _ _ o hS _; exact ⟨o, rfl, hS, fun _ => rfl, fun _ _ => rfl, fun _ _ => rfl, by simp⟩
  | cons ch chs ih =>
    intro hn hch o hS hd
    obtain ⟨hn1, hn⟩ := List.nodup_cons.mp hn
    obtain ⟨o1, e1, e2, e3, e4, e5⟩ := atomChannel_ok c nf nb nba a nd hle hb1 sy ch (hch ch (by simp)) hnd hsy hv gs hgs o hS (hd ch (by simp))
    obtain ⟨o2, f1, f2, f3, f4, f5, f6⟩ := ih hn (fun ch' h' => hch ch' (by simp [h'])) o1 e2
      (fun ch' h' w hw t h1 h2 => by rw [e3]; exact hd ch' (by simp [h']) w hw t h1 h2)
    refine ⟨o2, by rw [List.foldlM_cons, e1]; exact f1, f2, fun k => (f3 k).trans (e3 k), ?_, ?_, ?_⟩
    · intro k hk
      rw [f4 k hk, e4 k]
      intro h; rw [Prod.mk.injEq] at h; exact hk h.1
    · intro k hk
      rw [List.mem_cons, not_or] at hk
      rw [f5 k hk.2, e4 k]
      intro h; rw [Prod.mk.injEq] at h; exact hk.1 h.2
    · intro ch' hch' w hw ix V hV p hR
      rcases List.mem_cons.mp hch' with rfl | hch'
      · obtain ⟨p1, q1, q2⟩ := e5 w hw ix V hV p hR
        exact ⟨p1, q1, R_congr (fun g => f5 _ hn1) q2⟩
      · refine f6 ch' hch' w hw ix V hV p (R_congr (fun g => e4 _ ?_) hR)
        intro h; rw [Prod.mk.injEq] at h; exact hn1 (h.2 ▸ hch')

theorem atoms_ok (c : Conf) (nf nb : Nat) (groups : List (List (Grp K))) (nd : Nat → Nat) (sy : Nat → List (List Int)) (gs : Nat → List (Grp K))
    (nba : Nat → Nat) :
    ∀ (as : List Nat), as.Nodup → (∀ a ∈ as, groups[a]? = some (gs a) ∧ GoodAtom c nf nb (nba a) a (nd a) (sy a) (gs a)) →
    ∀ (o : OutFile K), Shp o (outShape c.target (nf, nb)) →
    (∀ a ∈ as, ∀ ch, ch = "dens" ∨ ch = "magn" → ∀ w < nBlocks c.target nb, ∀ t, InRange (nd a) t → Kan t → (o (a, ch, w, idx (nd a) t)).isSome) →
    ∃ o', as.foldlM (fun o a => (groups[a]?).bind fun gs => ["dens", "magn"].foldlM (fun o ch => symAtomChannel c nb a gs o ch) o) o = some o' ∧
      Shp o' (outShape c.target (nf, nb)) ∧ Dom o o' ∧ (∀ k : Key, k.1 ∉ as → o' k = o k) ∧
      ∀ a ∈ as, ∀ ch, ch = "dens" ∨ ch = "magn" → ∀ w < nBlocks c.target nb, ∀ ix (V : Q4 → Q4 → K),
        (∀ g ∈ gs a, nanv c.target (g.arr.at_ (place c.target w ix)) = some (V g.spins g.bands)) →
        ∀ p, R a ch w ix o p →
          ∃ p', symmetrizeChannel ch (sy a) (nd a) ((gs a).map fun g => ⟨g.spins, g.bands, V g.spins g.bands⟩) p = some p' ∧ R a ch w ix o' p' := by
  intro as
  induction as with
  | nil => intro _ _ o hS _; exact ⟨o, rfl, hS, fun _ => rfl, fun _ _ => rfl, by simp⟩
  | cons a as ih =>
    intro hn ha o hS hd
    obtain ⟨hn1, hn⟩ := List.nodup_cons.mp hn
    obtain ⟨hga, hgood⟩ := ha a (by simp)
    have hmem : ∀ ch, ch ∈ ["dens", "magn"] ↔ ch = "dens" ∨ ch = "magn" := by simp
    obtain ⟨o1, e1, e2, e3, e4, -, e6⟩ := channels_ok c nf nb (nba a) a (nd a) (sy a) (gs a) hgood ["dens", "magn"] (by decide) (fun ch => (hmem ch).mp) o hS
      (fun ch h => hd a (by simp) ch ((hmem ch).mp h))
    obtain ⟨o2, f1, f2, f3, f4, f5⟩ := ih hn (fun a' h' => ha a' (by simp [h'])) o1 e2
      (fun a' h' ch hch w hw t h1 h2 => by rw [e3]; exact hd a' (by simp [h']) ch hch w hw t h1 h2)
    refine ⟨o2, ?_, f2, fun k => (f3 k).trans (e3 k), ?_, ?_⟩
    · rw [List.foldlM_cons, hga, Option.bind_some, e1]; exact f1
    · intro k hk
      rw [List.mem_cons, not_or] at hk
      rw [f4 k hk.2, e4 k hk.1]
    · intro a' ha' ch hch w hw ix V hV p hR
      rcases List.mem_cons.mp ha' with rfl | ha2
      · obtain ⟨p1, q1, q2⟩ := e6 ch ((hmem ch).mpr hch) w hw ix V hV p hR
        exact ⟨p1, q1, R_congr (fun g => f4 _ hn1) q2⟩
      · refine f5 a' ha2 ch hch w hw ix V hV p (R_congr (fun g => e4 _ ?_) hR)
        rintro rfl; exact hn1 ha2

/-! ### the components of the Kanamori interaction -/

/-- the band tuples of the Kanamori interaction -/
def kanSet (nd : Nat) : Finset Q4 :=
  let r := Finset.Ico (0 : Int) nd ×ˢ Finset.Ico (0 : Int) nd
  (r.image fun x => (x.1, x.1, x.2, x.2)) ∪ (r.image fun x => (x.1, x.2, x.1, x.2)) ∪ r.image fun x => (x.1, x.2, x.2, x.1)

theorem mem_kanSet (nd : Nat) (b : Q4) : b ∈ kanSet nd ↔ InRange nd b ∧ Kan b := by
  obtain ⟨b1, b2, b3, b4⟩ := b
  simp only [kanSet, Finset.mem_union, Finset.mem_image, Finset.mem_product, Finset.mem_Ico, Prod.mk.injEq, Prod.exists, InRange, Kan]
  constructor
  · rintro ((⟨x, y, h, rfl, rfl, rfl, rfl⟩ | ⟨x, y, h, rfl, rfl, rfl, rfl⟩) | ⟨x, y, h, rfl, rfl, rfl, rfl⟩) <;> simp [h]
  · rintro ⟨⟨h1, h2, h3, h4⟩, ⟨rfl, rfl⟩ | ⟨rfl, rfl⟩ | ⟨rfl, rfl⟩⟩
    · exact .inl (.inl ⟨b1, b3, ⟨h1, h3⟩, rfl, rfl, rfl, rfl⟩)
    · exact .inl (.inr ⟨b1, b2, ⟨h1, h2⟩, rfl, rfl, rfl, rfl⟩)
    · exact .inr ⟨b1, b2, ⟨h1, h2⟩, rfl, rfl, rfl, rfl⟩

theorem card_kanSet (nd : Nat) : ((kanSet nd).card : Int) = 3 * (nd : Int) ^ 2 - 2 * nd := by
  set r := Finset.Ico (0 : Int) nd ×ˢ Finset.Ico (0 : Int) nd with hr
  set A := r.image fun x => ((x.1, x.1, x.2, x.2) : Q4) with hA
  set B := r.image fun x => ((x.1, x.2, x.1, x.2) : Q4) with hB
  set C := r.image fun x => ((x.1, x.2, x.2, x.1) : Q4) with hC
  set D := (Finset.Ico (0 : Int) nd).image fun x => ((x, x, x, x) : Q4) with hD
  have cr : r.card = nd ^ 2 := by rw [hr, Finset.card_product]; simp [sq]
  have cA : A.card = nd ^ 2 := by
    rw [hA, Finset.card_image_of_injective, cr]; rintro ⟨x, y⟩ ⟨x', y'⟩ h; simp at h; simp [h]
  have cB : B.card = nd ^ 2 := by
    rw [hB, Finset.card_image_of_injective, cr]; rintro ⟨x, y⟩ ⟨x', y'⟩ h; simp at h; simp [h]
  have cC : C.card = nd ^ 2 := by
    rw [hC, Finset.card_image_of_injective, cr]; rintro ⟨x, y⟩ ⟨x', y'⟩ h; simp at h; simp [h]
  have cD : D.card = nd := by
    rw [hD, Finset.card_image_of_injective]
    · simp
    · intro x x' h; simpa using h
  have memA : ∀ b : Q4, b ∈ A ↔ InRange nd b ∧ b.1 = b.2.1 ∧ b.2.2.1 = b.2.2.2 := by
    rintro ⟨b1, b2, b3, b4⟩
    simp only [hA, hr, Finset.mem_image, Finset.mem_product, Finset.mem_Ico, Prod.mk.injEq, Prod.exists, InRange]
    constructor
    · rintro ⟨x, y, h, rfl, rfl, rfl, rfl⟩; simp [h]
    · rintro ⟨⟨h1, h2, h3, h4⟩, rfl, rfl⟩; exact ⟨b1, b3, ⟨h1, h3⟩, rfl, rfl, rfl, rfl⟩
  have memB : ∀ b : Q4, b ∈ B ↔ InRange nd b ∧ b.1 = b.2.2.1 ∧ b.2.1 = b.2.2.2 := by
    rintro ⟨b1, b2, b3, b4⟩
    simp only [hB, hr, Finset.mem_image, Finset.mem_product, Finset.mem_Ico, Prod.mk.injEq, Prod.exists, InRange]
    constructor
    · rintro ⟨x, y, h, rfl, rfl, rfl, rfl⟩; simp [h]
    · rintro ⟨⟨h1, h2, h3, h4⟩, rfl, rfl⟩; exact ⟨b1, b2, ⟨h1, h2⟩, rfl, rfl, rfl, rfl⟩
  have memC : ∀ b : Q4, b ∈ C ↔ InRange nd b ∧ b.1 = b.2.2.2 ∧ b.2.1 = b.2.2.1 := by
    rintro ⟨b1, b2, b3, b4⟩
    simp only [hC, hr, Finset.mem_image, Finset.mem_product, Finset.mem_Ico, Prod.mk.injEq, Prod.exists, InRange]
    constructor
    · rintro ⟨x, y, h, rfl, rfl, rfl, rfl⟩; simp [h]
    · rintro ⟨⟨h1, h2, h3, h4⟩, rfl, rfl⟩; exact ⟨b1, b2, ⟨h1, h2⟩, rfl, rfl, rfl, rfl⟩
  have memD : ∀ b : Q4, b ∈ D ↔ InRange nd b ∧ b.1 = b.2.1 ∧ b.1 = b.2.2.1 ∧ b.1 = b.2.2.2 := by
    rintro ⟨b1, b2, b3, b4⟩
    simp only [hD, Finset.mem_image, Finset.mem_Ico, Prod.mk.injEq, InRange]
    constructor
    · rintro ⟨x, h, rfl, rfl, rfl, rfl⟩; simp [h]
    · rintro ⟨⟨h1, h2, h3, h4⟩, rfl, rfl, rfl⟩; exact ⟨b1, h1, rfl, rfl, rfl, rfl⟩
  have hAB : A ∩ B = D := by
    ext b
    rw [Finset.mem_inter, memA, memB, memD]
    constructor
    · rintro ⟨⟨h, h1, h2⟩, -, h3, h4⟩; exact ⟨h, h1, h3, h3.trans h2⟩
    · rintro ⟨h, h1, h2, h3⟩; exact ⟨⟨h, h1, h2.symm.trans h3⟩, h, h2, h1.symm.trans h3⟩
  have hABC : (A ∪ B) ∩ C = D := by
    ext b
    rw [Finset.mem_inter, Finset.mem_union, memA, memB, memC, memD]
    constructor
    · rintro ⟨⟨h, h1, h2⟩ | ⟨h, h1, h2⟩, -, h3, h4⟩
      · exact ⟨h, h1, h1.trans h4, h3⟩
      · exact ⟨h, h1.trans h4.symm, h1, h3⟩
    · rintro ⟨h, h1, h2, h3⟩; exact ⟨.inl ⟨h, h1, h2.symm.trans h3⟩, h, h3, h1.symm.trans h2⟩
  have e1 := Finset.card_union_add_card_inter A B
  have e2 := Finset.card_union_add_card_inter (A ∪ B) C
  rw [hAB, cA, cB, cD] at e1
  rw [hABC, cC, cD] at e2
  have : kanSet nd = A ∪ B ∪ C := rfl
  rw [this]
  zify at e1 e2
  linarith

/-- C127. The test of `get_groups` (number of groups = 6 (3 nb² - 2 nb)): a list of different Kanamori components passes it without a question
    exactly if it is complete. -/
theorem count_test (nd : Nat) (L : List (Q4 × Q4)) (hn : L.Nodup) (hL : ∀ sb ∈ L, sb.1 ∈ sixSpins ∧ InRange nd sb.2 ∧ Kan sb.2) :
    (L.length : Int) = 6 * (3 * (nd : Int) ^ 2 - 2 * nd) ↔ ∀ s ∈ sixSpins, ∀ b, InRange nd b → Kan b → (s, b) ∈ L := by
  have h6 : sixSpins.card = 6 := by decide
  have hsub : L.toFinset ⊆ sixSpins ×ˢ kanSet nd := by
    intro sb hsb
    rw [List.mem_toFinset] at hsb
    obtain ⟨h1, h2, h3⟩ := hL sb hsb
    exact Finset.mem_product.mpr ⟨h1, (mem_kanSet nd sb.2).mpr ⟨h2, h3⟩⟩
  have hcard : L.toFinset.card = L.length := List.toFinset_card_of_nodup hn
  have hprod : ((sixSpins ×ˢ kanSet nd).card : Int) = 6 * (3 * (nd : Int) ^ 2 - 2 * nd) := by
    rw [Finset.card_product, h6]; push_cast; rw [card_kanSet]
  constructor
  · intro h s hs b hr hk
    have : L.toFinset = sixSpins ×ˢ kanSet nd := Finset.eq_of_subset_of_card_le hsub (by rw [hcard]; zify; rw [hprod, h])
    have hm : (s, b) ∈ L.toFinset := by rw [this]; exact Finset.mem_product.mpr ⟨hs, (mem_kanSet nd b).mpr ⟨hr, hk⟩⟩
    exact List.mem_toFinset.mp hm
  · intro h
    have : L.toFinset = sixSpins ×ˢ kanSet nd := by
      apply Finset.Subset.antisymm hsub
      rintro ⟨s, b⟩ hsb
      obtain ⟨h1, h2⟩ := Finset.mem_product.mp hsb
      obtain ⟨h3, h4⟩ := (mem_kanSet nd b).mp h2
      exact List.mem_toFinset.mpr (h s h1 b h3 h4)
    rw [← hprod, ← this, hcard]

end DGA.Sym
