/-
  C145: the lines a run writes to its log before the calculation: the estimate of the memory, the system parameters and the check of the DMFT Green's function.
-/
import Verif.Whole.ContsProgram
import Verif.Bz.IrrQ

noncomputable section

namespace DGA.Whole

open DGA.Bz DGA.Wan DGA.WanIo DGA.Pipe DGA.Pairing DGA.Report DGA.Inp DGA.Two DGA.Mf DGA.Bubble DGA.Fp

/-! ### Model -/

/-- loggers.py:86-89, config.py:676: memory of complex entries in GB -/
def gb (entries : Int) : ℚ := entries * 16 * (1 / 10 ^ 9)

/-- config.py:668-682 `log_estimated_memory_consumption`: the four numbers of the line -/
structure MemEstimate where
  giwk : ℚ
  vrg : ℚ
  chi0q : ℚ
  fCond : ℚ

/-- config.py:668-682: `nq` and `nk` are the numbers of points of the two grids -/
def memEstimate (nq nk : Nat) (b : Cfg.Box) : MemEstimate :=
  let vnCore := b.nivCore * 2
  let wnCore := b.niwCore * 2 + 1
  let vnFull := b.nivFull * 2
  let vnAsympt := (b.nivFull + b.nivAsympt) * 2
  ⟨gb (nk * vnAsympt), gb (nq * wnCore * vnCore), gb (nq * wnCore * vnFull), gb (nq * wnCore * vnCore ^ 3)⟩

/-- `np.max` of an array; an empty one raises.  Used by config.py:664. -/
def maxOf : List ℝ → Option ℝ
  | [] => none
  | x :: t => some (t.foldl max x)

/-- config.py:663-664 the difference of the local Green's functions on the frequencies both have -/
def maxDiff (giw gloc : List ℂ) : Option ℝ :=
  let m : Nat := min (giw.length / 2) (gloc.length / 2)
  (zipW (fun a b => a - b) (cutV giw m) (cutV gloc m)).bind fun l => maxOf (l.map fun z => ‖z‖)

/-- the lines before the calculation; the rounding to four digits is not modelled -/
structure StartReport where
  mem : MemEstimate
  n : ℝ
  beta : ℝ
  u : ℝ
  muDmft : ℝ
  maxDiff : ℝ
  muInput : ℝ
  muGf : ℝ

/-- dga_main.py:70-71, 87-92 with config.py:654-682; the Green's function is constructed with the chemical potential of the input and keeps it
    (two_point.py:340-341) -/
def startReport (S : Settings) (d : Dict) (b : Cfg.Box) : Option StartReport :=
  match arrOf d.giw, arrOf d.siw, numOf d.n, numOf d.beta, numOf d.u, numOf d.mu with
  | some giw, some siw, some n, some beta, some u, some mu =>
    let nk := S.nx * S.ny * S.nz
    (maxDiff giw (genDmft S.nx S.ny S.nz S.hr mu (siwObj siw beta) b.nivAsympt.toNat b.niwCore.toNat).gloc).map fun diff =>
      ⟨memEstimate nk nk b, n, beta, u, mu, diff, mu, mu⟩
  | _, _, _, _, _, _ => none

/-! ### Specification -/

/-- number of entries of an array over momenta, bosonic and fermionic frequencies -/
def entries3 (a : List (List (List ℂ))) : Nat := (a.map fun g => (g.map List.length).sum).sum

/-- number of entries of an array with four axes -/
def entries4 (a : List (List (List (List ℂ)))) : Nat := (a.map entries3).sum

/-! ### Theorems -/

theorem foldl_max_greatest (t : List ℝ) (x : ℝ) : IsGreatest {y | y ∈ x :: t} (t.foldl max x) := by
  induction t generalizing x with
  | nil => simp [IsGreatest, upperBounds]
  | cons a t ih =>
    rw [List.foldl_cons]
    obtain ⟨h1, h2⟩ := ih (max x a)
    refine ⟨?_, ?_⟩
    · simp only [Set.mem_ofPred_eq, List.mem_cons] at h1 ⊢
      rcases h1 with h1 | h1
      · rw [h1]
        rcases max_choice x a with h | h <;> rw [h] <;> simp
      · exact Or.inr (Or.inr h1)
    · intro y hy
      simp only [Set.mem_ofPred_eq, List.mem_cons] at hy
      have hm : max x a ≤ t.foldl max (max x a) := h2 (by simp)
      rcases hy with rfl | rfl | hy
      · exact (le_max_left _ _).trans hm
      · exact (le_max_right _ _).trans hm
      · exact h2 (by simp [hy])

theorem maxDiff_value (f g : Int → ℂ) (N M : Nat) (hN : 0 < N) (hM : 0 < M) :
    ∃ x, maxDiff (samplesF f N) (samplesF g M) = some x ∧ IsGreatest {y | ∃ m : Int, -((min N M : Nat) : Int) ≤ m ∧ m < (min N M : Nat) ∧ y = ‖f m - g m‖} x := by
  have e1 : (samplesF f N).length / 2 = N := by rw [samplesF_length]; omega
  have e2 : (samplesF g M).length / 2 = M := by rw [samplesF_length]; omega
  unfold maxDiff
  simp only [e1, e2]
  have hc : ∀ (h : Int → ℂ) (L : Nat), min N M ≤ L → cutV (samplesF h L) ((min N M : Nat) : Int) = samplesF h (min N M) := by
    intro h L hL
    exact cutV_samplesF h L (min N M) hL
  rw [hc f N (min_le_left _ _), hc g M (min_le_right _ _)]
  have hz : zipW (fun a b : ℂ => a - b) (samplesF f (min N M)) (samplesF g (min N M)) = some (samplesF (fun m => f m - g m) (min N M)) := by
    unfold zipW
    rw [if_pos (by rw [samplesF_length, samplesF_length])]
    rw [zipWith_samplesF]
  rw [hz, Option.bind_some]
  have hne : 0 < min N M := lt_min hN hM
  have hlen : ((samplesF (fun m => f m - g m) (min N M)).map fun z => ‖z‖).length = 2 * min N M := by rw [List.length_map, samplesF_length]
  cases hl : ((samplesF (fun m => f m - g m) (min N M)).map fun z => ‖z‖) with
  | nil => rw [hl] at hlen; simp at hlen; omega
  | cons x t =>
    refine ⟨_, rfl, ?_⟩
    have := foldl_max_greatest t x
    rw [← hl] at this
    have hset : {y | y ∈ (samplesF (fun m => f m - g m) (min N M)).map fun z => ‖z‖} =
        {y | ∃ m : Int, -((min N M : Nat) : Int) ≤ m ∧ m < (min N M : Nat) ∧ y = ‖f m - g m‖} := by
      ext y
      simp only [Set.mem_ofPred_eq, List.mem_map]
      constructor
      · rintro ⟨z, hz, rfl⟩
        rw [List.mem_iff_getElem?] at hz
        obtain ⟨i, hi⟩ := hz
        have hil : i < 2 * min N M := by
          by_contra h
          rw [List.getElem?_eq_none (by rw [samplesF_length]; omega)] at hi
          cases hi
        rw [samplesF_get? _ _ _ hil] at hi
        exact ⟨(i : Int) - (min N M : Nat), by omega, by omega, by rw [← Option.some.inj hi]⟩
      · rintro ⟨m, h1, h2, rfl⟩
        refine ⟨f m - g m, ?_, rfl⟩
        rw [List.mem_iff_getElem?]
        refine ⟨(m + (min N M : Nat)).toNat, ?_⟩
        rw [samplesF_get? _ _ _ (by omega)]
        rw [show ((m + ((min N M : Nat) : Int)).toNat : Int) - ((min N M : Nat) : Int) = m by omega]
    rw [hset] at this
    exact this

theorem gb_le (a b : Int) : gb a ≤ gb b ↔ a ≤ b := by
  unfold gb
  constructor
  · intro h
    have : (a : ℚ) ≤ b := by linarith
    exact_mod_cast this
  · intro h
    have : (a : ℚ) ≤ b := by exact_mod_cast h
    linarith

theorem gb_inj (a b : Int) : gb a = gb b ↔ a = b := by
  rw [le_antisymm_iff, gb_le, gb_le, ← le_antisymm_iff]

variable {fs : Fs} {ty path f1 : String} {f2 : Option String} {S : Settings} (I : Files fs ty path f1 f2 S)

/-- the self-energy is kept on 20 frequencies at least -/
theorem core_ge : 20 ≤ (siwObj (samplesF I.Sg I.N) I.beta).nivCore := (estimate_bounds _ _ _ _ _ _).1

/-- **C145 (a).** What is written before the calculation.  If the input holds a local Green's function `Gi` on `2 Ni` frequencies, the reported difference is the
    largest one between `Gi` and the momentum average of Dyson's equation over the frequencies both have.  The two chemical potentials of the check are always both
    the one of the input. -/
theorem start_report (Gi : Int → ℂ) (Ni : Nat) (hNi : 0 < Ni) (hg : I.d.giw = .a1 (samplesF Gi Ni)) :
    ∃ r, startReport S I.d ⟨I.w, I.c, I.sh, I.as⟩ = some r ∧ r.n = I.n ∧ r.beta = I.beta ∧ r.u = I.u ∧ r.muDmft = I.mu ∧ r.muInput = I.mu ∧ r.muGf = I.mu ∧
      IsGreatest {y | ∃ m : Int, -((min Ni I.NG : Nat) : Int) ≤ m ∧ m < (min Ni I.NG : Nat) ∧
        y = ‖Gi m - (kSum S.nx S.ny S.nz fun i j k => runG S I.mu I.beta I.Sg I.N i j k m) / ((S.nx * S.ny * S.nz : Nat) : ℂ)‖} r.maxDiff ∧
      r.mem = memEstimate (S.nx * S.ny * S.nz) (S.nx * S.ny * S.nz) ⟨I.w, I.c, I.sh, I.as⟩ := by
  have h20 := core_ge I
  have hNG : 0 < I.NG := by
    unfold Files.NG
    omega
  obtain ⟨x, hx, hgr⟩ := maxDiff_value Gi I.gloc Ni I.NG hNi hNG
  unfold startReport
  rw [hg, I.siw, I.d_n, I.d_beta, I.d_u, I.d_mu]
  simp only [arrOf, numOf, Int.toNat_natCast, Complex.ofReal_re]
  rw [genDmft_eq S.nx S.ny S.nz S.hr I.mu _ (posHalf I.Sg I.N) (siwObj_sigma I.Sg I.N I.beta).1 (by simpa [posHalf] using core_le I.Sg I.N I.beta I.hN)]
  refine ⟨⟨memEstimate (S.nx * S.ny * S.nz) (S.nx * S.ny * S.nz) ⟨I.w, I.c, I.sh, I.as⟩, I.n, I.beta, I.u, I.mu, x, I.mu, I.mu⟩, ?_, rfl, rfl, rfl, rfl, rfl, rfl, hgr, rfl⟩
  rw [show (genOf S.nx S.ny S.nz ((siwObj (samplesF I.Sg I.N) I.beta).nivCore + I.as) I.w (((siwObj (samplesF I.Sg I.N) I.beta).beta : ℝ) : ℂ)
    (gBand S.nx S.ny S.nz S.hr I.mu (siwObj (samplesF I.Sg I.N) I.beta) (posHalf I.Sg I.N))
    (gLocBand S.nx S.ny S.nz S.hr I.mu (siwObj (samplesF I.Sg I.N) I.beta) (posHalf I.Sg I.N))).gloc = samplesF I.gloc I.NG from rfl, hx]
  rfl

/-- an input without frequencies of the Green's function stops the program (`np.max` of an empty array) -/
theorem start_report_empty (hg : I.d.giw = .a1 []) : startReport S I.d ⟨I.w, I.c, I.sh, I.as⟩ = none := by
  unfold startReport
  rw [hg, I.siw, I.d_n, I.d_beta, I.d_u, I.d_mu]
  simp only [arrOf, numOf]
  rw [show maxDiff [] _ = none by
    unfold maxDiff
    simp only [List.length_nil, Nat.zero_div, Nat.zero_min]
    unfold zipW
    split_ifs with h
    · rw [show cutV ([] : List ℂ) ((0 : Nat) : Int) = [] from rfl]
      rfl
    · rfl]
  rfl

/-- entries of an array over `K` momenta, `B` bosonic and `V` fermionic frequencies -/
theorem entries3_const {α β : Type} (qs : List α) (ws : List β) (F : α → β → Int → ℂ) (n : Nat) :
    entries3 (qs.map fun q => ws.map fun x => samplesF (F q x) n) = qs.length * (ws.length * (2 * n)) := by
  unfold entries3
  simp only [List.map_map, Function.comp_def, samplesF_length, List.map_const', List.sum_replicate, smul_eq_mul]

/-- **C145 (b).** The memory announced for a Green's function is that of the one built from the self-energy the calculation ends with. -/
theorem memory_dga [NeZero S.nx] [NeZero S.ny] [NeZero S.nz] (out : MainOut)
    (h : calcFrom S I.d ⟨I.w, I.c, I.sh, I.as⟩ (I.obj "dens" I.D) (I.obj "magn" I.M) = .ok out) (mu : ℝ) (g : Gf) (hg : newGf out.sigma (bandOf S) mu I.as = some g) :
    (g.bytes : ℚ) * (1 / 10 ^ 9) = (memEstimate (S.nx * S.ny * S.nz) (S.nx * S.ny * S.nz) ⟨I.w, I.c, I.sh, I.as⟩).giwk := by
  obtain ⟨Sig, -, hinv, hsig, hbeta, hcore⟩ := I.calc_sigma out h
  have hlen : out.sigma.sigma.length = S.nx * S.ny * S.nz := by rw [hsig, flat3_table]; simp
  have hrow : ∀ r ∈ out.sigma.sigma, out.sigma.nivCore ≤ r.length := by
    rw [hsig, hcore, flat3_table]
    intro r hr
    rw [List.mem_map] at hr
    obtain ⟨l, _, rfl⟩ := hr
    simp
  have hpos : 0 < S.nx * S.ny * S.nz := Nat.mul_pos (Nat.mul_pos (Nat.pos_of_ne_zero (NeZero.ne _)) (Nat.pos_of_ne_zero (NeZero.ne _))) (Nat.pos_of_ne_zero (NeZero.ne _))
  have hnK : nK out.sigma (bandOf S) = S.nx * S.ny * S.nz := by
    unfold nK
    rw [bandOf_length, hlen]
    split_ifs <;> rfl
  obtain ⟨a, ha, _⟩ := newGf_state out.sigma (bandOf S) mu I.as (Or.inl (by rw [bandOf_length, hlen])) hrow (by rw [hnK]; exact hpos)
  rw [ha] at hg
  rw [← Option.some.inj hg]
  unfold Gf.bytes memEstimate gb Cfg.Box.nivFull
  simp only [List.map_map, Function.comp_def, samplesF_length, List.map_const', List.sum_replicate, smul_eq_mul, List.length_range, hnK, hcore, Int.toNat_natCast]
  push_cast
  ring

/-- **C145 (c).** For the Green's function of the DMFT self-energy it is an upper bound if and only if the self-energy is kept on no more frequencies than core and
    shell have together; it always is kept on 20 at least. -/
theorem memory_dmft (hK : 0 < S.nx * S.ny * S.nz) :
    (gb (((flat3 (giwkDmft S.nx S.ny S.nz S.hr I.mu (siwObj (samplesF I.Sg I.N) I.beta) I.as)).map List.length).sum) ≤
      (memEstimate (S.nx * S.ny * S.nz) (S.nx * S.ny * S.nz) ⟨I.w, I.c, I.sh, I.as⟩).giwk ↔ (siwObj (samplesF I.Sg I.N) I.beta).nivCore ≤ I.c + I.sh) ∧
    20 ≤ (siwObj (samplesF I.Sg I.N) I.beta).nivCore := by
  refine ⟨?_, core_ge I⟩
  rw [giwkDmft_eq S.nx S.ny S.nz S.hr I.mu _ (posHalf I.Sg I.N) (siwObj_sigma I.Sg I.N I.beta).1 (by simpa [posHalf] using core_le I.Sg I.N I.beta I.hN), flat3_table]
  simp only [List.map_map, Function.comp_def, samplesF_length, List.map_const', List.sum_replicate, smul_eq_mul, List.length_range]
  unfold memEstimate Cfg.Box.nivFull
  simp only
  rw [gb_le]
  generalize (siwObj (samplesF I.Sg I.N) I.beta).nivCore = n0
  generalize hk : S.nx * S.ny * S.nz = k at hK ⊢
  rw [show ((k * (2 * (n0 + I.as)) : Nat) : Int) = (k : Int) * (2 * ((n0 : Int) + I.as)) by push_cast; ring]
  rw [Int.mul_le_mul_left (by exact_mod_cast hK)]
  omega

/-- **C145 (d).** The bubbles of all ranks together take at most the announced memory, exactly it if and only if no two momenta are equivalent. -/
theorem memory_bubbles (mp : Arr3 Nat) (hmp : fbz2irrk S.nx S.ny S.nz S.syms = some mp) :
    ∃ (irr : List (Nat × Nat × Nat)) (parts : List (List Mom)) (arrs : List (List (List (List ℂ)))), irrqList S.nx S.ny S.nz (flat3 mp) = some irr ∧
      distribute S.ranks (irr.map momOf) = some parts ∧
      parts.mapM (fun qs => (genDmft S.nx S.ny S.nz S.hr I.mu (siwObj (samplesF I.Sg I.N) I.beta) I.as I.w).gchi0Q (I.c + I.sh) qs) = some arrs ∧
      gb (entries4 arrs) ≤ (memEstimate (S.nx * S.ny * S.nz) (S.nx * S.ny * S.nz) ⟨I.w, I.c, I.sh, I.as⟩).chi0q ∧
      (gb (entries4 arrs) = (memEstimate (S.nx * S.ny * S.nz) (S.nx * S.ny * S.nz) ⟨I.w, I.c, I.sh, I.as⟩).chi0q ↔ irr.length = S.nx * S.ny * S.nz) := by
  obtain ⟨irr, hirr, hnd, -, hin, -⟩ := irrqList_any S.nx S.ny S.nz S.syms mp hmp
  obtain ⟨b, -, hd, hfl⟩ := distribute_spec S.ranks I.ranks (irr.map momOf)
  set parts := (List.range S.ranks).map fun (r : Nat) => Py.slice (irr.map momOf) (b r) (b (r + 1)) with hparts
  have hle : irr.length ≤ S.nx * S.ny * S.nz := by
    have h1 : (irr.map fun q => lin S.ny S.nz q.1 q.2.1 q.2.2).Nodup := by
      refine List.Nodup.map_on ?_ hnd
      intro p hp q hq e
      have d1 := lin_div S.ny S.nz p.1 p.2.1 p.2.2 (hin p hp).2.1 (hin p hp).2.2
      have d2 := lin_div S.ny S.nz q.1 q.2.1 q.2.2 (hin q hq).2.1 (hin q hq).2.2
      rw [← e] at d2
      rw [d1] at d2
      exact d2
    have h2 : (irr.map fun q => lin S.ny S.nz q.1 q.2.1 q.2.2) ⊆ List.range (S.nx * S.ny * S.nz) := by
      intro x hx
      rw [List.mem_map] at hx
      obtain ⟨q, hq, rfl⟩ := hx
      rw [List.mem_range]
      exact Bz.lin_lt S.nx S.ny S.nz _ _ _ (hin q hq).1 (hin q hq).2.1 (hin q hq).2.2
    have := (List.subperm_of_subset h1 h2).length_le
    simpa using this
  have hgen := genDmft_eq S.nx S.ny S.nz S.hr I.mu (siwObj (samplesF I.Sg I.N) I.beta) (posHalf I.Sg I.N) (siwObj_sigma I.Sg I.N I.beta).1
    (by simpa [posHalf] using core_le I.Sg I.N I.beta I.hN) I.as I.w
  have hone : ∀ qs : List Mom, (genDmft S.nx S.ny S.nz S.hr I.mu (siwObj (samplesF I.Sg I.N) I.beta) I.as I.w).gchi0Q (I.c + I.sh) qs =
      some (qs.map fun q => (wn I.w).map fun (x : Int) => samplesF (bubQ S.nx S.ny S.nz (((siwObj (samplesF I.Sg I.N) I.beta).beta : ℝ) : ℂ)
        (gBand S.nx S.ny S.nz S.hr I.mu (siwObj (samplesF I.Sg I.N) I.beta) (posHalf I.Sg I.N)) q x) (I.c + I.sh)) := by
    intro qs
    rw [hgen, gchi0Q_gen _ _ _ _ _ _ (Complex.conj_ofReal _) _ _ (fun i j k m _ _ => gBand_conj _ _ _ _ _ _ _ i j k m) _ I.fit]
  have hall : ∀ l : List (List Mom), l.mapM (fun qs => (genDmft S.nx S.ny S.nz S.hr I.mu (siwObj (samplesF I.Sg I.N) I.beta) I.as I.w).gchi0Q (I.c + I.sh) qs) =
      some (l.map fun qs => qs.map fun q => (wn I.w).map fun (x : Int) => samplesF (bubQ S.nx S.ny S.nz (((siwObj (samplesF I.Sg I.N) I.beta).beta : ℝ) : ℂ)
        (gBand S.nx S.ny S.nz S.hr I.mu (siwObj (samplesF I.Sg I.N) I.beta) (posHalf I.Sg I.N)) q x) (I.c + I.sh)) := by
    intro l
    induction l with
    | nil => rfl
    | cons qs l ih =>
      rw [List.mapM_cons, hone, ih]
      rfl
  have hent : entries4 (parts.map fun qs => qs.map fun q => (wn I.w).map fun (x : Int) => samplesF (bubQ S.nx S.ny S.nz (((siwObj (samplesF I.Sg I.N) I.beta).beta : ℝ) : ℂ)
        (gBand S.nx S.ny S.nz S.hr I.mu (siwObj (samplesF I.Sg I.N) I.beta) (posHalf I.Sg I.N)) q x) (I.c + I.sh)) =
      irr.length * ((2 * I.w + 1) * (2 * (I.c + I.sh))) := by
    unfold entries4
    rw [List.map_map]
    simp only [Function.comp_def, entries3_const, wn_length]
    rw [show irr.length = (parts.map List.length).sum by
      rw [← List.length_flatten, hfl, List.length_map], List.sum_map_mul_right]
  refine ⟨irr, parts, _, hirr, hd, hall parts, ?_⟩
  rw [hent]
  unfold memEstimate Cfg.Box.nivFull
  simp only
  rw [gb_le, gb_inj]
  have hc := I.c_pos
  generalize S.nx * S.ny * S.nz = k at hle ⊢
  have e1 : ((irr.length * ((2 * I.w + 1) * (2 * (I.c + I.sh))) : Nat) : Int) = ((irr.length : Nat) : Int) * ((2 * I.w + 1) * (2 * (I.c + I.sh))) := by push_cast; ring
  have e2 : (k : Int) * ((I.w : Int) * 2 + 1) * (((I.sh : Int) + I.c) * 2) = (k : Int) * ((2 * I.w + 1) * (2 * (I.c + I.sh))) := by ring
  have hpos : 0 < (2 * (I.w : Int) + 1) * (2 * (I.c + I.sh)) := by positivity
  rw [e1, e2]
  constructor
  · exact Int.mul_le_mul_of_nonneg_right (by exact_mod_cast hle) hpos.le
  · constructor
    · intro h
      exact_mod_cast Int.eq_of_mul_eq_mul_right hpos.ne' h
    · intro h
      rw [h]

/-- **C145 (e).** The three-leg vertices of a channel, gathered and expanded to the full zone, take exactly the announced memory. -/
theorem memory_vrg (mp : Arr3 Nat) (hmp : fbz2irrk S.nx S.ny S.nz S.syms = some mp) (ΓD ΓM : Int → Mat (2 * I.c) ℂ) (Q : QData ℂ)
    (hQ : ladderFbz I.sh S.ranks S.nx S.ny S.nz (flat3 mp) (objOf true I.w (I.beta : ℂ) (I.u : ℂ) ΓD) (objOf false I.w (I.beta : ℂ) (I.u : ℂ) ΓM)
      (genDmft S.nx S.ny S.nz S.hr I.mu (siwObj (samplesF I.Sg I.N) I.beta) I.as I.w) = some Q) :
    gb (entries3 Q.vrgD) = (memEstimate (S.nx * S.ny * S.nz) (S.nx * S.ny * S.nz) ⟨I.w, I.c, I.sh, I.as⟩).vrg ∧
    gb (entries3 Q.vrgM) = (memEstimate (S.nx * S.ny * S.nz) (S.nx * S.ny * S.nz) ⟨I.w, I.c, I.sh, I.as⟩).vrg := by
  obtain ⟨s1, s2⟩ := siwObj_sigma I.Sg I.N I.beta
  have hgen : genDmft S.nx S.ny S.nz S.hr I.mu (siwObj (samplesF I.Sg I.N) I.beta) I.as I.w = genOf S.nx S.ny S.nz I.NG I.w (I.beta : ℂ) I.G I.gloc := by
    rw [genDmft_eq S.nx S.ny S.nz S.hr I.mu _ (posHalf I.Sg I.N) s1 (by simpa [posHalf] using core_le I.Sg I.N I.beta I.hN), s2]
    rfl
  obtain ⟨label, hlab, -⟩ := label_of S.nx S.ny S.nz S.syms mp hmp
  subst hlab
  obtain ⟨irr, rep, h1, h2, -⟩ := expand_irr S.nx S.ny S.nz label
  rw [hgen, ladderFbz_of I.sh S.nx S.ny S.nz I.NG I.w (I.beta : ℂ) (I.u : ℂ) (Complex.conj_ofReal I.beta) I.G I.gloc (fun m _ _ => I.gloc_conj m)
    (fun i j k m _ _ => I.G_conj i j k m) I.fit ΓD ΓM label irr rep h1 h2 S.ranks I.ranks] at hQ
  split at hQ
  swap
  · cases hQ
  have hq : ((qList S.nx S.ny S.nz).map momOf).length = S.nx * S.ny * S.nz := by
    rw [List.length_map, (qList_value S.nx S.ny S.nz).1]
  rw [← Option.some.inj hQ]
  unfold mk5 memEstimate
  simp only [entries3_const, hq, wn_length]
  constructor <;> congr 1 <;> push_cast <;> ring

theorem sum_len (l : List α) (f : α → Nat) (n : Nat) (h : ∀ x ∈ l, f x = n) : (l.map f).sum = l.length * n := by
  rw [List.map_congr_left h, List.map_const', List.sum_replicate, smul_eq_mul]

/-- **C145 (f).** For the vertex of the optical conductivity the announced memory is too large by a factor of the four-fold core box at least. -/
theorem memory_fcond [NeZero S.nx] [NeZero S.ny] [NeZero S.nz] (o : Cfg.Optics) (derA derB : Fin 3) (newton : (ℝ → ℝ) → ℝ → Option ℂ) (hfit : I.w ≤ I.sh + I.as) (r : OptOut)
    (h : mainOptics fs ty path f1 f2 S o derA derB newton = .ok r) :
    (4 * I.c : ℚ) * gb (entries4 r.fCond) ≤ (memEstimate (S.nx * S.ny * S.nz) (S.nx * S.ny * S.nz) ⟨I.w, I.c, I.sh, I.as⟩).fCond := by
  obtain ⟨a, -, -, -, hset, -, hV0, hnV, hC0, -, -, -, -, l1, l2⟩ := I.opt_run o derA derB newton hfit r h
  obtain ⟨hw, hv⟩ : r.ranges.niwVert ≤ I.w ∧ r.ranges.nivVert = I.c - r.ranges.niwCond := by
    unfold Cfg.Optics.setRanges at hset
    simp only [Option.bind_eq_some_iff] at hset
    obtain ⟨x, hx, y, hy, hs⟩ := hset
    have e := congrArg Prod.fst (Option.some.inj hs)
    simp only at e
    rw [← e]
    refine ⟨?_, rfl⟩
    simp only
    split_ifs at hx with c1 c2
    · exact (Option.some.inj hx).ge
    · rw [← Option.some.inj hx]
      exact c2
  obtain ⟨x, hx⟩ := Int.eq_ofNat_of_zero_le hV0
  obtain ⟨y, hy⟩ := Int.eq_ofNat_of_zero_le hC0
  obtain ⟨z, hz⟩ := Int.eq_ofNat_of_zero_le hnV.le
  have hent : entries4 r.fCond = S.nx * S.ny * S.nz * ((2 * x + 1) * ((y + 1) * (2 * z))) := by
    unfold entries4
    rw [sum_len _ _ ((2 * x + 1) * ((y + 1) * (2 * z))), l1]
    intro p hp
    obtain ⟨m1, m2⟩ := l2 p hp
    unfold entries3
    rw [sum_len _ _ ((y + 1) * (2 * z)), show p.length = 2 * x + 1 by omega]
    intro q hq
    obtain ⟨k1, k2⟩ := m2 q hq
    rw [sum_len _ _ (2 * z), show q.length = y + 1 by omega]
    intro t ht
    have := k2 t ht
    omega
  have h1 : x ≤ I.w := by omega
  have h2 : y + 1 ≤ I.c := by omega
  have h3 : z ≤ I.c := by omega
  have key : 4 * I.c * (S.nx * S.ny * S.nz * ((2 * x + 1) * ((y + 1) * (2 * z)))) ≤ S.nx * S.ny * S.nz * (I.w * 2 + 1) * (I.c * 2) ^ 3 := by
    calc 4 * I.c * (S.nx * S.ny * S.nz * ((2 * x + 1) * ((y + 1) * (2 * z)))) ≤ 4 * I.c * (S.nx * S.ny * S.nz * ((2 * I.w + 1) * (I.c * (2 * I.c)))) := by gcongr
      _ = _ := by ring
  rw [hent]
  unfold memEstimate gb
  simp only
  have key' : ((4 * I.c * (S.nx * S.ny * S.nz * ((2 * x + 1) * ((y + 1) * (2 * z)))) : Nat) : ℚ) ≤ ((S.nx * S.ny * S.nz * (I.w * 2 + 1) * (I.c * 2) ^ 3 : Nat) : ℚ) := by
    exact_mod_cast key
  push_cast at key' ⊢
  linarith

/-- **C145 (g).** The check decides nothing: two inputs that differ only in the local Green's function give the same results of the whole program. -/
theorem giw_irrelevant (fs1 fs2 : Fs) (ty path f1 : String) (f2 : Option String) (S : Settings) [NeZero S.nx] [NeZero S.ny] [NeZero S.nz] (d : Dict) (x : DS)
    (h1 : load1p fs1 ty path f1 f2 = some d) (h2 : load1p fs2 ty path f1 f2 = some { d with giw := x }) (P : Plan) (saveFq : Bool) (F : Option (Nat × Nat))
    (fit : Fitter) (C : ContPlan) (T : Tools) (X : Chance S.nx S.ny S.nz) :
    mainConts fs1 ty path f1 f2 S P saveFq F fit C T X = mainConts fs2 ty path f1 f2 S P saveFq F fit C T X := by
  have hpoly : mainPoly fs1 ty path f1 f2 S P saveFq F fit X = mainPoly fs2 ty path f1 f2 S P saveFq F fit X := by
    unfold mainPoly
    rw [h1, h2]
    rfl
  unfold mainConts
  rw [h1, h2, hpoly]
  rfl

/-! ### Cases -/

namespace StartEx

open DGA.Pairing.Ex4 (core_ge gA)
open DGA.Whole.ContEx (theFiles)

/-- the input of ContsEx.lean with a local Green's function -/
def dict : Dict := { ContEx.dict with giw := .a1 (samplesF gA 30) }

def fsG : Fs := ⟨fun _ => none, fun s => if s = "in/data.npy" then some dict else none⟩

def files : Files fsG "test" "in/" "data.npy" none ContEx.S := { theFiles with d := dict, load := by simp [load1p, fsG] }

/-- (a): a Green's function on 60 frequencies -/
example : ∃ r, startReport ContEx.S dict ⟨2, 2, 18, 24⟩ = some r ∧ r.n = 9 / 10 ∧ r.beta = Real.pi ∧ r.u = 0 ∧ r.muDmft = 0 := by
  obtain ⟨r, h, a, b, c, d, _⟩ := start_report files gA 30 (by norm_num) rfl
  exact ⟨r, h, a, b, c, d⟩

/-- an empty one: the input of ContsEx.lean -/
example : startReport ContEx.S ContEx.dict ⟨2, 2, 18, 24⟩ = none := start_report_empty theFiles rfl

/-- (c): core and shell have 20 frequencies here and only 2 in FromFilesEx.lean, where the announced memory is too low -/
example : ¬ gb (((flat3 (giwkDmft 4 4 1 Pairing.Ex4.S.hr 0 (siwObj (samplesF (fun _ => 0) 20) Real.pi) 6)).map List.length).sum) ≤
    (memEstimate 16 16 ⟨2, 2, 0, 6⟩).giwk := by
  intro h
  have := (memory_dmft Pairing.Ex4.theFiles (by decide)).1.1 h
  have h20 := (memory_dmft Pairing.Ex4.theFiles (by decide)).2
  have e : Pairing.Ex4.theFiles.c + Pairing.Ex4.theFiles.sh = 2 := rfl
  omega

/-- (d) to (f): the numbers of this input -/
example : memEstimate 16 16 ⟨2, 2, 18, 24⟩ = ⟨22528 / 10 ^ 9, 5120 / 10 ^ 9, 51200 / 10 ^ 9, 81920 / 10 ^ 9⟩ := by
  simp [memEstimate, gb, Cfg.Box.nivFull]
  norm_num

/-- (d): the symmetries of this lattice can be read -/
example : ∃ mp irr, fbz2irrk ContEx.S.nx ContEx.S.ny ContEx.S.nz ContEx.S.syms = some mp ∧ irrqList ContEx.S.nx ContEx.S.ny ContEx.S.nz (flat3 mp) = some irr := by
  obtain ⟨mp, h⟩ : ∃ mp, fbz2irrk 4 4 1 square = some mp := Option.isSome_iff_exists.1 (by decide +kernel)
  obtain ⟨irr, -, -, h2, -⟩ := memory_bubbles files mp h
  exact ⟨mp, irr, h, h2⟩

/-- (g): with and without the Green's function -/
example (P : Plan) (saveFq : Bool) (F : Option (Nat × Nat)) (fit : Fitter) (C : ContPlan) (T : Tools) (X : Chance ContEx.S.nx ContEx.S.ny ContEx.S.nz) :
    mainConts ContEx.fs "test" "in/" "data.npy" none ContEx.S P saveFq F fit C T X = mainConts fsG "test" "in/" "data.npy" none ContEx.S P saveFq F fit C T X :=
  giw_irrelevant _ _ _ _ _ _ _ ContEx.dict _ ContEx.load files.load P saveFq F fit C T X

end StartEx

end DGA.Whole
