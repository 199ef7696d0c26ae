/-
  C149: from a complete run to the saved Green's function of the post-processing of its continued self-energy.
-/
import Verif.Whole.ContsEx
import Verif.TwoPoint.SigmaPost

noncomputable section

namespace DGA.Whole

open DGA.Mf DGA.Bz DGA.Bubble DGA.Fp DGA.Two DGA.Inp DGA.Pipe DGA.Pairing DGA.Report DGA.Shared
open DGA.RankFiles (Str)
open DGA.Eli (Grid)

/-! ### Specification -/

/-- the optimiser behind the continuation called `name` only finds non-negative spectra (as a maximum-entropy fit does: it writes them as `model * exp u`) -/
def FindsSpectra (T : Tools) (name : String) : Prop := ∀ im w data model A, T.solve name im w data model = some A → ∀ a ∈ A, 0 ≤ a

/-- the files of the run that the post-processing reads: the continued self-energy, its mesh, mu.txt, the filling -/
def filesOf (o : SwkOut) (muTxt : List ℝ) (n : ℝ) : SigmaFiles := ⟨flat3 o.swk, o.w, muTxt, n⟩

/-- Entry `(p, j)` of a flattened array over momenta and frequencies -/
def entry (ny nz : Nat) (t : List (List ℂ)) (p : Pt) (j : Nat) : Option ℂ := (t[linP ny nz p]?).bind fun r => r[j]?

/-- `g` is Dyson's Green's function at the real frequency `x` with self-energy `s`, has no pole there, and its spectral function is positive and at most `b` -/
def GoodG (x mu e : ℝ) (s g : ℂ) (b : ℝ) : Prop :=
  (x : ℂ) + (mu : ℂ) - (e : ℂ) - s ≠ 0 ∧ g = 1 / ((x : ℂ) + (mu : ℂ) - (e : ℂ) - s) ∧ 0 < -g.im / Real.pi ∧ -g.im / Real.pi ≤ b

/-- The post-processing of the results `o` returns; at every momentum of the zone the self-energy has an entry for every frequency of the mesh, it is causal, and both
    the run's Green's function (self-energy damped by 0.04 more) and the post-processed one (damping raised to 0.04) are good ones. -/
def PostAs (S : Settings) (minimize : (ℝ → ℝ) → ℝ → ℝ) (n : ℝ) (muTxt : List ℝ) (o : SwkOut) : Prop :=
  ∃ r, sigmaPost minimize (bandOf S) (filesOf o muTxt n) = some r ∧ r.gwk.length = S.nx * S.ny * S.nz ∧
    ∀ p, InGrid S.nx S.ny S.nz p → ∃ row, Bz.at3 o.swk p.1 p.2.1 p.2.2 = some row ∧ row.length = o.w.length ∧
      ∀ j x, o.w[j]? = some x → ∃ z a G g, row[j]? = some z ∧ z.im ≤ 0 ∧ Floored (4 / 100) z a ∧
        entry S.ny S.nz r.gwk p j = some G ∧ GoodG x r.muDga (band S p.1 p.2.1 p.2.2) a G (25 / Real.pi) ∧
        entry S.ny S.nz o.gwk p j = some g ∧ GoodG x o.mu (band S p.1 p.2.1 p.2.2) (z - Complex.I * ((4 / 100 : ℝ) : ℂ)) g (25 / Real.pi)

/-! ### Theorems -/

theorem good_of (c : ℝ) (hc : 0 < c) (x mu e : ℝ) (s : ℂ) (hs : s.im ≤ -c) : GoodG x mu e s (1 / ((x : ℂ) + (mu : ℂ) - (e : ℂ) - s)) (1 / (Real.pi * c)) := by
  have hf : Floored c s s := ⟨fun _ => rfl, fun h => by rw [abs_of_nonpos (by linarith)] at h; linarith⟩
  obtain ⟨h1, -, h3, h4⟩ := (post_causal c hc x mu e s s hf).1 (by linarith)
  exact ⟨h1, rfl, h3, h4⟩

/-- what is continued from a solver that finds non-negative spectra is causal and as long as the mesh -/
theorem orZeros_causal (T : Tools) (name : String) (hA : FindsSpectra T name) (beta : ℝ) (w : List ℝ) (n : Nat) (F : Int → ℂ) :
    (orZeros w (fermiCont (T.solve name) beta w n F)).length = w.length ∧ ∀ z ∈ orZeros w (fermiCont (T.solve name) beta w n F), z.im ≤ 0 := by
  unfold orZeros
  rcases h : fermiCont (T.solve name) beta w n F with _ | g
  · refine ⟨by simp, fun z hz => ?_⟩
    simp only [Option.getD_none, List.mem_map] at hz
    obtain ⟨_, _, rfl⟩ := hz
    simp
  · unfold fermiCont at h
    rw [Option.bind_eq_some_iff] at h
    obtain ⟨A, h1, h2⟩ := h
    obtain ⟨k1, k2⟩ := Ana.kkt_keeps_spectrum A w _ g h2
    refine ⟨k1, fun z hz => ?_⟩
    simp only [Option.getD_some] at hz
    have := hA _ _ _ _ _ h1 (-z.im / Real.pi) (by rw [← k2]; exact List.mem_map_of_mem hz)
    have hp := Real.pi_pos
    by_contra hc
    rw [le_div_iff₀ hp] at this
    linarith

section

variable {fs : Fs} {ty path f1 : String} {f2 : Option String} {S : Settings} [NeZero S.nx] [NeZero S.ny] [NeZero S.nz]
variable (I : Files fs ty path f1 f2 S)

variable (out : MainOut) (h : calcFrom S I.d ⟨I.w, I.c, I.sh, I.as⟩ (I.obj "dens" I.D) (I.obj "magn" I.M) = .ok out)

include h in
/-- the continued self-energy, flattened, has an entry for every momentum of the zone -/
theorem swk_flat (T : Tools) (newton : (ℝ → ℝ) → ℝ → Option ℂ) (M : MaxEntPlan) (y : MaxEntOut) (hy : maxEntMain S T newton I.d out M = some y) (o : SwkOut)
    (ho : y.s = some o) : (flat3 o.swk).length = S.nx * S.ny * S.nz ∧
      ∀ p, InGrid S.nx S.ny S.nz p → (flat3 o.swk)[linP S.ny S.nz p]? = Bz.at3 o.swk p.1 p.2.1 p.2.2 := by
  obtain ⟨h20, hmu, mp, hmp, g, hgf, e1, -⟩ := cont_inputs I out h T newton M y hy
  unfold section_ at e1
  split at e1
  · rw [← Option.some.inj e1] at ho; cases ho
  rw [Option.bind_eq_some_iff] at e1
  obtain ⟨c, -, e1⟩ := e1
  unfold ifAsked at e1
  split_ifs at e1
  · rw [ho, Option.map_eq_some_iff] at e1
    obtain ⟨o', e1, e⟩ := e1
    cases e
    unfold contSwk at e1
    simp only [Option.bind_eq_some_iff, Option.map_eq_some_iff] at e1
    obtain ⟨t, ht, r, hr, last, -, q, -, hh, -, rfl⟩ := e1
    obtain ⟨l, hl, ht', hf⟩ := contGrid_shape mp hmp _ _ _ _ ht
    simp only [hf]
    have hrl : (l.map fun r => r.map fun z => z + ((loadedSigma out I.beta).smom0 : ℂ)).length = S.nx * S.ny * S.nz := by simpa using hl
    rw [flat3_reshape3 _ _ _ _ hrl]
    exact ⟨hrl, fun p hp => (at3_reshape _ hrl p hp).symm⟩
  · rw [← Option.some.inj e1] at ho; cases ho

omit [NeZero S.nx] [NeZero S.ny] [NeZero S.nz] in
theorem bandOf_get (p : Pt) (hp : InGrid S.nx S.ny S.nz p) : (bandOf S).getD (linP S.ny S.nz p) 0 = band S p.1 p.2.1 p.2.2 := by
  have hlt : linP S.ny S.nz p < S.nx * S.ny * S.nz := Bz.lin_lt S.nx S.ny S.nz _ _ _ hp.1 hp.2.1 hp.2.2
  have e := ekOf_band S _ hlt
  have hd : pt S.ny S.nz (linP S.ny S.nz p) = p := lin_div S.ny S.nz p.1 p.2.1 p.2.2 hp.2.1 hp.2.2
  rw [show linP S.ny S.nz p / S.nz / S.ny = p.1 from congrArg (fun q : Pt => q.1) hd,
    show linP S.ny S.nz p / S.nz % S.ny = p.2.1 from congrArg (fun q : Pt => q.2.1) hd,
    show linP S.ny S.nz p % S.nz = p.2.2 from congrArg (fun q : Pt => q.2.2) hd] at e
  rw [← e]
  unfold ekOf
  rw [bandOf_length]
  split_ifs with h1
  · rw [show linP S.ny S.nz p = 0 by omega]
  · rfl

include h in
/-- the post-processing of what dga_max_ent.py leaves -/
theorem post_of_maxEnt (T : Tools) (hA : FindsSpectra T "s_dga") (newton : (ℝ → ℝ) → ℝ → Option ℂ) (M : MaxEntPlan) (y : MaxEntOut)
    (hy : maxEntMain S T newton I.d out M = some y) (o : SwkOut) (ho : y.s = some o) (minimize : (ℝ → ℝ) → ℝ → ℝ) (n : ℝ) (mu0 mu1 : ℝ) (l : List ℝ) :
    PostAs S minimize n (mu0 :: mu1 :: l) o := by
  obtain ⟨hflen, hfat⟩ := swk_flat I out h T newton M y hy o ho
  obtain ⟨-, -, hs, -⟩ := maxEnt_values I out h T newton M y hy
  rcases hs with ⟨-, hs⟩ | ⟨K0, b, ws, -, -, ⟨-, hs⟩ | ⟨o', -, hs, hw, hrow, -, hg⟩⟩
  · rw [ho] at hs; cases hs
  · rw [ho] at hs; cases hs
  rw [ho] at hs
  cases hs
  subst hw
  have hpos : 0 < S.nx * S.ny * S.nz := nk_pos
  obtain ⟨sm, hsm⟩ : ∃ sm : ℝ, sm = (loadedSigma out I.beta).smom0 := ⟨_, rfl⟩
  obtain ⟨Z, hZ⟩ : ∃ Z : Pt → List ℂ, Z = fun p => orZeros o.w (fermiCont (T.solve "s_dga") I.beta o.w K0.nFit fun m =>
    sigmaAt S (loadedSigma out I.beta) p.1 p.2.1 p.2.2 m - ((loadedSigma out I.beta).smom0 : ℂ)) := ⟨_, rfl⟩
  have hZc : ∀ p, (Z p).length = o.w.length ∧ ∀ z ∈ Z p, z.im ≤ 0 := fun p => by rw [hZ]; exact orZeros_causal T "s_dga" hA _ _ _ _
  have hrow' : ∀ p, InGrid S.nx S.ny S.nz p → Bz.at3 o.swk p.1 p.2.1 p.2.2 = some ((Z p).map fun z => z + (sm : ℂ)) := by
    intro p hp
    rw [hZ, hsm]
    exact hrow p hp
  have hlen : ∀ p, ((Z p).map fun z => z + (sm : ℂ)).length = o.w.length := fun p => by rw [List.length_map]; exact (hZc p).1
  have hcaus : ∀ p, ∀ z ∈ (Z p).map (fun z => z + (sm : ℂ)), z.im ≤ 0 := by
    intro p z hz
    obtain ⟨z', hz', rfl⟩ := List.mem_map.1 hz
    simpa using (hZc p).2 z' hz'
  have hfS : (filesOf o (mu0 :: mu1 :: l) n).swk = (List.range (bandOf S).length).map fun k => (List.range (filesOf o (mu0 :: mu1 :: l) n).w.length).map
      ((fun k j => ((flat3 o.swk).getD k []).getD j 0) k) := by
    rw [bandOf_length]
    show flat3 o.swk = (List.range (S.nx * S.ny * S.nz)).map fun k => (List.range o.w.length).map _
    apply List.ext_getElem (by simpa using hflen)
    intro k h1 h2
    have hk : k < S.nx * S.ny * S.nz := by rw [← hflen]; exact h1
    obtain ⟨b1, b2, b3, -⟩ := pt_bounds S.nx S.ny S.nz k hk
    have hp : InGrid S.nx S.ny S.nz (pt S.ny S.nz k) := ⟨b1, b2, b3⟩
    have hk2 : linP S.ny S.nz (pt S.ny S.nz k) = k := Pf.linP_pt S.nx S.ny S.nz k hk
    have e := hfat _ hp
    rw [hk2, hrow' _ hp, List.getElem?_eq_getElem h1] at e
    have e := Option.some.inj e
    rw [List.getElem_map, List.getElem_range]
    apply List.ext_getElem
    · rw [e, hlen]; simp
    · intro j g1 g2
      simp only [List.getElem_map, List.getElem_range]
      rw [List.getD_eq_getElem?_getD (l := flat3 o.swk), List.getElem?_eq_getElem h1, Option.getD_some, List.getD_eq_getElem?_getD, List.getElem?_eq_getElem g1, Option.getD_some]
  obtain ⟨r, hr, hgr, -⟩ := post_value minimize (bandOf S) (filesOf o (mu0 :: mu1 :: l) n) mu0 mu1 l rfl _ (fun k j => dampFloor (4 / 100) (((flat3 o.swk).getD k []).getD j 0)) hfS
    fun k j => dampFloor_spec _ _
  refine ⟨r, hr, by rw [hgr, List.length_map, List.length_range, bandOf_length], ?_⟩
  intro p hp
  have hlt : linP S.ny S.nz p < S.nx * S.ny * S.nz := Bz.lin_lt S.nx S.ny S.nz _ _ _ hp.1 hp.2.1 hp.2.2
  refine ⟨_, hrow' p hp, hlen p, ?_⟩
  intro j x hx
  have hj : j < o.w.length := (List.getElem?_eq_some_iff.1 hx).1
  obtain ⟨row, hrowdef⟩ : ∃ row, row = (Z p).map fun z => z + (sm : ℂ) := ⟨_, rfl⟩
  have hrl : row.length = o.w.length := by rw [hrowdef]; exact hlen p
  have hat := hrow' p hp
  have hc := hcaus p
  rw [← hrowdef] at hat hc ⊢
  obtain ⟨z, hz⟩ : ∃ z, row[j]? = some z := ⟨_, List.getElem?_eq_getElem (by omega)⟩
  have hzc : z.im ≤ 0 := hc z (List.mem_of_getElem? hz)
  have hfl : (flat3 o.swk)[linP S.ny S.nz p]? = some row := by rw [hfat p hp, hat]
  have hget : ((flat3 o.swk).getD (linP S.ny S.nz p) []).getD j 0 = z := by
    rw [List.getD_eq_getElem?_getD (l := flat3 o.swk), hfl, Option.getD_some, List.getD_eq_getElem?_getD, hz, Option.getD_some]
  have hwget : o.w.getD j 0 = x := by rw [List.getD_eq_getElem?_getD, hx, Option.getD_some]
  have hb25 : (1 / (Real.pi * (4 / 100 : ℝ))) = 25 / Real.pi := by
    have := Real.pi_ne_zero
    field_simp
    norm_num
  refine ⟨z, dampFloor (4 / 100) z, 1 / ((x : ℂ) + (r.muDga : ℂ) - (band S p.1 p.2.1 p.2.2 : ℂ) - dampFloor (4 / 100) z),
    1 / ((x : ℂ) + (o.mu : ℂ) - (band S p.1 p.2.1 p.2.2 : ℂ) - (z - Complex.I * ((4 / 100 : ℝ) : ℂ))), hz, hzc, dampFloor_spec _ _, ?_, ?_, ?_, ?_⟩
  · unfold entry
    rw [hgr, List.getElem?_map, bandOf_length, List.getElem?_range hlt, Option.map_some, Option.bind_some]
    show ((List.range o.w.length).map _)[j]? = _
    rw [List.getElem?_map, List.getElem?_range hj, Option.map_some]
    simp only [hget, bandOf_get p hp]
    show some (1 / (((o.w.getD j 0 : ℝ) : ℂ) + _ - _ - _)) = _
    rw [hwget]
  · rw [← hb25]
    exact good_of _ (by norm_num) _ _ _ _ ((floor_least _ (by norm_num) z _ (dampFloor_spec _ _)).2.2.1 hzc).1
  · unfold entry
    rw [hg p hp, hat, Option.map_some, Option.bind_some, List.getElem?_zipWith, hx, hz]
    simp only [Two.gwk]
    norm_num
  · rw [← hb25]
    exact good_of _ (by norm_num) _ _ _ _ (by simp; linarith)

include I in
/-- **C149.** Post-processing the continued self-energy of any complete run that leaves one: it returns whatever mu.txt (with at least two numbers), filling and minimiser are used; the
    self-energy is causal at every momentum and frequency, and both Green's functions have no pole on the real axis and a spectral function in `(0, 25/π]`. -/
theorem post_of_run (P : Plan) (saveFq : Bool) (F : Option (Nat × Nat)) (fit : Fitter) (C : ContPlan) (T : Tools)
    (hA : FindsSpectra T "s_dga") (X : Chance S.nx S.ny S.nz) (x : OneOut S.nx S.ny S.nz) (fits : Option PolyFits) (c : ContsOut)
    (h : mainConts fs ty path f1 f2 S P saveFq F fit C T X = .ok (x, fits, c)) (y : MaxEntOut) (hy : c.maxEnt = some y) (o : SwkOut) (ho : y.s = some o)
    (minimize : (ℝ → ℝ) → ℝ → ℝ) (n mu0 mu1 : ℝ) (l : List ℝ) : PostAs S minimize n (mu0 :: mu1 :: l) o := by
  obtain ⟨h1, h2⟩ := (conts_split I P saveFq F fit C T X x fits c).1 h
  have hone := ((poly_split I P saveFq F fit X x fits).1 h1).1
  obtain ⟨a, ha, _, mu, -, -, hcalc⟩ := one_parts I P saveFq X x hone
  unfold contsFrom at h2
  rw [Option.bind_eq_some_iff] at h2
  obtain ⟨cc, -, e2⟩ := h2
  rw [Option.map_eq_some_iff] at e2
  obtain ⟨mm, e2, rfl⟩ := e2
  simp only at hy
  subst hy
  rcases hM : C.maxEnt with _ | M
  · rw [hM] at e2; cases e2
  · rw [hM] at e2
    simp only [Option.map_eq_some_iff] at e2
    obtain ⟨y', hy', e⟩ := e2
    cases e
    exact @post_of_maxEnt fs ty path f1 f2 (withAs S a) _ _ _ (I.enlarge a ha) x.main hcalc T hA X.newton M y hy' o ho minimize n mu0 mu1 l

end

/-! ### Concrete case: the run of C142, which leaves a continued self-energy -/

open ContEx in
example : FindsSpectra T "s_dga" ∧ ∃ x fits c y o, mainConts ContEx.fs "test" "in/" "data.npy" none S plan true none (fun _ _ _ _ => 0) theConts T X = .ok (x, fits, c) ∧
    c.maxEnt = some y ∧ y.s = some o ∧ PostAs S (fun _ x => x) (9 / 10) [1, 0] o := by
  have hA : FindsSpectra T "s_dga" := by
    intro im w data model A hA a ha
    cases hA
    simp at ha
    rw [ha.2]
    exact zero_le_one
  obtain ⟨x, fits, c, h, -, -, y, hy, hs, -⟩ := conts_return
  obtain ⟨o, ho⟩ := Option.isSome_iff_exists.1 hs
  exact ⟨hA, x, fits, c, y, o, h, hy, ho, post_of_run theFiles _ _ _ _ _ T hA _ _ _ _ h y hy o ho _ _ _ _ _⟩

end DGA.Whole
