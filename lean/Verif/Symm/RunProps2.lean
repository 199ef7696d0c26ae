/-
  C127: what a run of the symmetrisation program leaves on disk (main theorems).
-/
import Verif.Symm.RunProps

namespace DGA.Sym

variable {K : Type} [Field K]

/-! ### check_sym and get_groups succeed -/

theorem checkSym_of_valid (sy : List (List Int)) (nd : Nat) (hv : Valid sy nd) : checkSym sy nd = some true := by
  unfold checkSym
  have inner : ∀ i : Int, 0 ≤ i → i < nd → ∀ l : List Int, (∀ j ∈ l, j ∈ cls sy i) → l.foldlM (fun ok j => (Py.get? sy (j - 1)).map fun yj =>
      ok && decide ((∀ x ∈ cls sy i, x ∈ yj) ∧ ∀ x ∈ yj, x ∈ cls sy i)) true = some true := by
    intro i h0 h1 l
    induction l with
    | nil => intro _; rfl
    | cons j l ih =>
      intro hl
      have hj := hv.range i h0 h1 j (hl j (by simp))
      rw [List.foldlM_cons, get?_cls sy nd hv.len (j - 1) (by omega) (by omega), Option.map_some]
      have ht := hv.trans i h0 h1 j (hl j (by simp))
      have hd : (∀ x ∈ cls sy i, x ∈ cls sy (j - 1)) ∧ ∀ x ∈ cls sy (j - 1), x ∈ cls sy i :=
        ⟨fun x hx => (ht x).mpr hx, fun x hx => (ht x).mp hx⟩
      rw [Bool.true_and, @decide_eq_true _ _ hd]
      exact ih fun j' h' => hl j' (by simp [h'])
  have outer : ∀ l : List Nat, (∀ i ∈ l, i < nd) → l.foldlM (fun ok i => (sy[i]?).bind fun yi =>
        yi.foldlM (fun ok j => (Py.get? sy (j - 1)).map fun yj =>
          ok && decide ((∀ x ∈ yi, x ∈ yj) ∧ ∀ x ∈ yj, x ∈ yi)) ok) true = some true := by
    intro l
    induction l with
    | nil => intro _; rfl
    | cons i l ih =>
      intro hl
      have hi := hl i (by simp)
      have e : sy[i]? = some (cls sy (i : Int)) := by
        have := get?_cls sy nd hv.len i (by omega) (by omega)
        unfold Py.get? at this
        rw [if_neg (by omega)] at this
        simpa using this
      rw [List.foldlM_cons, e, Option.bind_some, inner i (by omega) (by omega) _ (fun _ h => h)]
      exact ih fun i' h' => hl i' (by simp [h'])
  exact outer _ (by simp)

theorem getD_get {α : Type} (l : List α) (d : α) (a : Nat) (h : a < l.length) : l[a]? = some (l.getD a d) := by
  simp [List.getD, h]

theorem checkAll_ok (c : Conf) (h1 : c.nineq ≤ c.nbands.length) (h2 : c.nineq ≤ c.sym.length)
    (hv : ∀ a < c.nineq, Valid (c.sym.getD a []) (c.nbands.getD a 0)) : checkAll c = some true := by
  unfold checkAll
  have : ∀ l : List Nat, (∀ a ∈ l, a < c.nineq) →
      l.foldlM (fun ok a => (c.nbands[a]?).bind fun nd => (c.sym[a]?).bind fun sy => (checkSym sy nd).map (ok && ·)) true = some true := by
    intro l
    induction l with
    | nil => intro _; rfl
    | cons a l ih =>
      intro hl
      have ha := hl a (by simp)
      rw [List.foldlM_cons, getD_get c.nbands 0 a (by omega), Option.bind_some, getD_get c.sym [] a (by omega), Option.bind_some,
        checkSym_of_valid _ _ (hv a ha)]
      exact ih fun a' h' => hl a' (by simp [h'])
  exact this _ (by simp)

theorem mapM_ok {α β ε : Type} (f : α → Except ε β) (g : α → β) (l : List α) (h : ∀ a ∈ l, f a = .ok (g a)) : l.mapM f = .ok (l.map g) := by
  induction l with
  | nil => rfl
  | cons a l ih => rw [List.mapM_cons, h a (by simp), ih fun a' h' => h a' (by simp [h'])]; rfl

omit [Field K] in
theorem groups_decode (nd : Nat) : ∀ (gl : List (Int × Arr K)) (L : List (Q4 × Q4)), gl.map (fun e => decode nd e.1) = L.map some →
    ∃ l : List (Grp K), gl.mapM (fun g => (decode nd g.1).map fun sb => (⟨sb.1, sb.2, g.2⟩ : Grp K)) = some l ∧
      l.map (fun g => (g.spins, g.bands)) = L ∧ ∀ g ∈ l, ∃ e ∈ gl, g.arr = e.2 ∧ decode nd e.1 = some (g.spins, g.bands) := by
  intro gl
  induction gl with
  | nil => intro L h; exact ⟨[], rfl, by cases L with | nil => rfl | cons _ _ => simp at h, by simp⟩
  | cons e gl ih =>
    intro L h
    cases L with
    | nil => simp at h
    | cons sb L =>
      rw [List.map_cons, List.map_cons, List.cons.injEq] at h
      obtain ⟨l, h1, h2, h3⟩ := ih L h.2
      refine ⟨⟨sb.1, sb.2, e.2⟩ :: l, by rw [List.mapM_cons, h.1, h1]; rfl, by rw [List.map_cons, h2], ?_⟩
      intro g hg
      rcases List.mem_cons.mp hg with rfl | hg
      · exact ⟨e, by simp, rfl, h.1⟩
      · obtain ⟨e', he', h'⟩ := h3 g hg
        exact ⟨e', by simp [he'], h'⟩

/-! ### specification of the input -/

/-- The input of a run: valid tables of equivalent bands; every atom `a` holds each Kanamori component once, in any order, with `2 nf` fermionic and
    `2 nba a + 1` bosonic frequencies, the values being `X a spins bands`; group 00001 of the first atom of `worm-last` has `2 nb + 1` bosonic
    frequencies, no more than any other array (exactly as many for '1freq_b'); for '3freq' there is a group `.axes`. -/
structure InputOk (c : Conf) (f : InFile K) (nf nb : Nat) (nba : Nat → Nat) (X : Nat → Q4 → Q4 → List Nat → Option K) : Prop where
  nbands : c.nineq ≤ c.nbands.length
  sym : c.nineq ≤ c.sym.length
  valid : ∀ a < c.nineq, Valid (c.sym.getD a []) (c.nbands.getD a 0)
  axes : c.target = .ffb3 → f.axes = true
  box : ∃ gl, f.grp "worm-last" 1 = some gl ∧ (∃ e ∈ gl, e.1 = 1) ∧ ∀ e ∈ gl, e.1 = 1 → e.2.shape = fullShape c.target nf nb
  le : ∀ a < c.nineq, nb ≤ nba a ∧ (c.target = .b1 → nba a = nb)
  comps : ∀ a < c.nineq, ∃ (gl : List (Int × Arr K)) (L : List (Q4 × Q4)), f.grp c.worm (a + 1) = some gl ∧ gl.map (fun e => decode (c.nbands.getD a 0) e.1) = L.map some ∧ L.Nodup ∧
    (∀ sb : Q4 × Q4, sb ∈ L ↔ sb.1 ∈ sixSpins ∧ InRange (c.nbands.getD a 0) sb.2 ∧ Kan sb.2) ∧
    ∀ e ∈ gl, e.2.shape = fullShape c.target nf (nba a) ∧
      ∀ sb, decode (c.nbands.getD a 0) e.1 = some sb → ∀ ix, e.2.at_ ix = X a sb.1 sb.2 ix

omit [Field K] in
theorem getFbox_ok (t : Target) (f : InFile K) (nf nb : Nat)
    (h : ∃ gl, f.grp "worm-last" 1 = some gl ∧ (∃ e ∈ gl, e.1 = 1) ∧ ∀ e ∈ gl, e.1 = 1 → e.2.shape = fullShape t nf nb) :
    ∃ box, getFbox t f = some box ∧ box.2 = nb ∧ outShape t box = outShape t (nf, nb) := by
  obtain ⟨gl, h1, ⟨e, he, he1⟩, h3⟩ := h
  have hf : ∃ e', gl.find? (fun g => g.1 == 1) = some e' := by
    rw [← Option.isSome_iff_exists, List.find?_isSome]
    exact ⟨e, he, by simp [he1]⟩
  obtain ⟨e', he'⟩ := hf
  have hm := List.mem_of_find?_eq_some he'
  have hp := List.find?_some he'
  have hs := h3 e' hm (by simpa using hp)
  unfold getFbox
  rw [h1, Option.bind_some, he', Option.bind_some]
  have d1 : (2 * nb + 1) / 2 = nb := by omega
  have d2 : 2 * nf / 2 = nf := by omega
  cases t <;> simp only [fullShape] at hs <;> rw [hs] <;> simp [d1, d2, outShape]

open Classical in
/-- C127. From a complete input the program writes, and writes nothing but, one dataset for every atom, channel, bosonic index and Kanamori band
    tuple; entry `ix` of the dataset of bosonic index `w` is the weighted sum over the spin combinations of the average over the equivalent band
    tuples of the data at `place w ix`, where NaN counts as zero for '3freq' (for the other targets there must be none at this entry). -/
theorem run_value [CharZero K] (c : Conf) (f : InFile K) (ans : Bool) (nf nb : Nat) (nba : Nat → Nat) (X : Nat → Q4 → Q4 → List Nat → Option K)
    (h : InputOk c f nf nb nba X) :
    ∃ o, run c (some f) ans .absent = (.done, .file o) ∧
      (∀ a ch w i, (o (a, ch, w, i)).isSome ↔ a < c.nineq ∧ (ch = "dens" ∨ ch = "magn") ∧ w < nBlocks c.target nb ∧
        ∃ g, InRange (c.nbands.getD a 0) g ∧ Kan g ∧ component2indexBand (c.nbands.getD a 0) 4 g.toList = some i) ∧
      (∀ k A, o k = some A → A.shape = outShape c.target (nf, nb)) ∧
      ∀ a < c.nineq, ∀ ch, ch = "dens" ∨ ch = "magn" → ∀ w < nBlocks c.target nb, ∀ (g : Q4) (orb : Finset Q4) (i : Int) (ix : List Nat)
        (V : Q4 → Q4 → K), InRange (c.nbands.getD a 0) g → Kan g → (∀ t, t ∈ orb ↔ Equiv4 (c.sym.getD a []) g t) →
        component2indexBand (c.nbands.getD a 0) 4 g.toList = some i →
        (∀ s ∈ sixSpins, ∀ b, InRange (c.nbands.getD a 0) b → Kan b → nanv c.target (X a s b (place c.target w ix)) = some (V s b)) →
        ∃ A, o (a, ch, w, i) = some A ∧ A.at_ ix = some (∑ s ∈ sixSpins, weight K ch s * ((∑ b ∈ orb, V s b) / (orb.card : K))) := by
  set nd : Nat → Nat := fun a => c.nbands.getD a 0 with hnd
  set sy : Nat → List (List Int) := fun a => c.sym.getD a [] with hsy
  have hch := checkAll_ok c h.nbands h.sym h.valid
  -- the groups of the atoms
  have hgr : ∀ a, ∃ l : List (Grp K), a < c.nineq → getGroups1 c f ans a = .ok l ∧
      (l.map fun g => (g.spins, g.bands)).Nodup ∧
      (∀ sb : Q4 × Q4, sb ∈ (l.map fun g => (g.spins, g.bands)) ↔ sb.1 ∈ sixSpins ∧ InRange (nd a) sb.2 ∧ Kan sb.2) ∧
      ∀ g ∈ l, g.arr.shape = fullShape c.target nf (nba a) ∧ ∀ ix, g.arr.at_ ix = X a g.spins g.bands ix := by
    intro a
    by_cases ha : a < c.nineq
    · obtain ⟨gl, L, h1, h2, h3, h4, h5⟩ := h.comps a ha
      obtain ⟨l, q1, q2, q3⟩ := groups_decode (nd a) gl L h2
      refine ⟨l, fun _ => ⟨?_, by rw [q2]; exact h3, fun sb => by rw [q2]; exact h4 sb, ?_⟩⟩
      · have hlen : gl.length = L.length := by have := congrArg List.length h2; simpa using this
        have hcount := (count_test (nd a) L h3 (fun sb hsb => (h4 sb).mp hsb)).mpr (fun s hs b hr hk => (h4 (s, b)).mpr ⟨hs, hr, hk⟩)
        unfold getGroups1
        rw [h1, getD_get c.nbands 0 a (lt_of_lt_of_le ha h.nbands)]
        simp only [hlen]
        rw [if_neg (fun hh => hh.1 hcount)]
        rw [q1]
      · intro g hg
        obtain ⟨e, he, e1, e2⟩ := q3 g hg
        obtain ⟨r1, r2⟩ := h5 e he
        rw [e1]
        exact ⟨r1, r2 _ e2⟩
    · exact ⟨[], fun h' => absurd h' ha⟩
  choose gs hgs using hgr
  have hgg : getGroups c f ans = .ok ((List.range c.nineq).map gs) :=
    mapM_ok _ _ _ fun a ha => (hgs a (List.mem_range.mp ha)).1
  obtain ⟨box, hbox, hb2, hsh⟩ := getFbox_ok c.target f nf nb h.box
  have hgetD : ∀ a < c.nineq, ((List.range c.nineq).map gs)[a]? = some (gs a) := by
    intro a ha; simp [ha]
  have hgetD' : ∀ a < c.nineq, ((List.range c.nineq).map gs).getD a [] = gs a := by
    intro a ha; simp [List.getD, ha]
  set o0 : OutFile K := initOutput c box ((List.range c.nineq).map gs) with ho0
  have hinb : ∀ a < c.nineq, ∀ i, inBgroups (nd a) (gs a) i ↔
      ∃ g, InRange (nd a) g ∧ Kan g ∧ component2indexBand (nd a) 4 g.toList = some i := by
    intro a ha i
    obtain ⟨-, -, hm, -⟩ := hgs a ha
    constructor
    · rintro ⟨x, hx, hxi⟩
      have := (hm (x.spins, x.bands)).mp (List.mem_map.mpr ⟨x, hx, rfl⟩)
      exact ⟨x.bands, this.2.1, this.2.2, hxi⟩
    · rintro ⟨g, hr, hk, hi⟩
      have := (hm ((0, 0, 0, 0), g)).mpr ⟨show (0, 0, 0, 0) ∈ sixSpins by decide, hr, hk⟩
      obtain ⟨x, hx, hxe⟩ := List.mem_map.mp this
      refine ⟨x, hx, ?_⟩
      have : x.bands = g := congrArg Prod.snd hxe
      rw [this]; exact hi
  have hinit : ∀ a ch w i, o0 (a, ch, w, i) = if a < c.nineq ∧ (ch = "dens" ∨ ch = "magn") ∧ w < nBlocks c.target nb ∧
        ∃ g, InRange (nd a) g ∧ Kan g ∧ component2indexBand (nd a) 4 g.toList = some i then
      some ⟨outShape c.target (nf, nb), fun _ => some 0⟩ else none := by
    intro a ch w i
    rw [ho0]
    unfold initOutput
    simp only [hb2, hsh]
    by_cases ha : a < c.nineq
    · simp only [ha, hgetD' a ha, true_and]
      have := hinb a ha i
      simp only [hnd] at this ⊢
      simp only [this]
    · simp [ha]
  have hS0 : Shp o0 (outShape c.target (nf, nb)) := by
    rintro ⟨a, ch, w, i⟩ A hA
    rw [hinit] at hA
    split at hA
    · injection hA with hA; rw [← hA]
    · simp at hA
  have hgood : ∀ a ∈ List.range c.nineq, ((List.range c.nineq).map gs)[a]? = some (gs a) ∧ GoodAtom c nf nb (nba a) a (nd a) (sy a) (gs a) := by
    intro a ha
    rw [List.mem_range] at ha
    obtain ⟨-, -, hm, hv⟩ := hgs a ha
    refine ⟨hgetD a ha, getD_get c.nbands 0 a (lt_of_lt_of_le ha h.nbands), getD_get c.sym [] a (lt_of_lt_of_le ha h.sym), h.valid a ha,
      (h.le a ha).1, (h.le a ha).2, ?_⟩
    intro g hg
    have := (hm (g.spins, g.bands)).mp (List.mem_map.mpr ⟨g, hg, rfl⟩)
    exact ⟨this.1, this.2.1, this.2.2, (hv g hg).1⟩
  obtain ⟨o, e1, e2, e3, -, e5⟩ := atoms_ok c nf nb ((List.range c.nineq).map gs) nd sy gs nba (List.range c.nineq) List.nodup_range hgood o0 hS0
    (by
      intro a ha ch hch w hw t hr hk
      rw [hinit, if_pos ⟨List.mem_range.mp ha, hch, hw, t, hr, hk, idx_eq (nd a) t⟩]
      rfl)
  refine ⟨o, ?_, ?_, e2, ?_⟩
  · unfold run
    rw [hch]
    simp only [hgg, hbox]
    rw [if_neg]
    · have : symLoop c box.2 ((List.range c.nineq).map gs) o0 = some o := by rw [hb2]; exact e1
      rw [this]
    · rintro ⟨h1, -, h2⟩
      rw [h.axes h1] at h2
      simp at h2
  · intro a ch w i
    rw [e3, hinit]
    by_cases hc : a < c.nineq ∧ (ch = "dens" ∨ ch = "magn") ∧ w < nBlocks c.target nb ∧
        ∃ g, InRange (nd a) g ∧ Kan g ∧ component2indexBand (nd a) 4 g.toList = some i
    · rw [if_pos hc]; simp only [Option.isSome_some, true_iff]; exact hc
    · rw [if_neg hc]; simp only [Option.isSome_none, Bool.false_eq_true, false_iff]; exact hc
  · intro a ha ch hch w hw g orb i ix V hr hk horb hi hV
    obtain ⟨-, hn, hm, hv⟩ := hgs a ha
    set L := (gs a).map fun g => (g.spins, g.bands) with hL
    have hcomps : ((gs a).map fun g => (⟨g.spins, g.bands, V g.spins g.bands⟩ : Comp K)) = L.map fun sb => ⟨sb.1, sb.2, V sb.1 sb.2⟩ := by
      rw [hL, List.map_map]; rfl
    have hR0 : R a ch w ix o0 (initOut (nd a) (L.map fun sb => (⟨sb.1, sb.2, V sb.1 sb.2⟩ : Comp K))) := by
      intro i'
      rw [hinit]
      have hiff : (∃ c' ∈ (L.map fun sb => (⟨sb.1, sb.2, V sb.1 sb.2⟩ : Comp K)), component2indexBand (nd a) 4 c'.bands.toList = some i') ↔
          ∃ g, InRange (nd a) g ∧ Kan g ∧ component2indexBand (nd a) 4 g.toList = some i' := by
        rw [← hinb a ha i', ← hcomps]
        constructor
        · rintro ⟨c', hc', hi'⟩
          obtain ⟨x, hx, rfl⟩ := List.mem_map.mp hc'
          exact ⟨x, hx, hi'⟩
        · rintro ⟨x, hx, hi'⟩
          exact ⟨_, List.mem_map.mpr ⟨x, hx, rfl⟩, hi'⟩
      unfold initOut
      by_cases hex : ∃ g, InRange (nd a) g ∧ Kan g ∧ component2indexBand (nd a) 4 g.toList = some i'
      · rw [if_pos ⟨ha, hch, hw, hex⟩, if_pos (hiff.mpr hex)]; rfl
      · rw [if_neg (fun hh => hex hh.2.2.2), if_neg (fun hh => hex (hiff.mp hh))]; rfl
    obtain ⟨p', q1, q2⟩ := e5 a (List.mem_range.mpr ha) ch hch w hw ix V
      (by
        intro x hx
        have := (hm (x.spins, x.bands)).mp (List.mem_map.mpr ⟨x, hx, rfl⟩)
        rw [(hv x hx).2]
        exact hV _ this.1 _ this.2.1 this.2.2) _ hR0
    obtain ⟨p'', r1, r2⟩ := symmetrize_average ch hch (sy a) (nd a) (h.valid a ha) V L hn hm
    rw [hcomps, r1] at q1
    injection q1 with q1
    subst q1
    have hval := r2 g orb i hr hk horb hi
    have hRi := q2 i
    rw [hval, Option.map_some] at hRi
    cases hA : o (a, ch, w, i) with
    | none => rw [hA] at hRi; simp at hRi
    | some A =>
      rw [hA, Option.map_some] at hRi
      injection hRi with hRi
      exact ⟨A, rfl, hRi⟩

end DGA.Sym
