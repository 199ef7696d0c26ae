/-
  C142: when the continuations of a complete run return, and an even mesh on which they do not.
-/
import Verif.Whole.ContsAll
import Verif.Optics.MeshKinds

noncomputable section

namespace DGA.Whole

open DGA.Mf DGA.Bz DGA.Bubble DGA.Fp DGA.Two DGA.Inp DGA.Pipe DGA.Pairing DGA.Report DGA.Shared
open DGA.RankFiles (Str)
open DGA.Eli (Grid)

theorem init_some (K : ContSet) (bosonic : Bool) (beta : ℝ) (w : List ℝ) (hw : MeshIs K bosonic w) :
    ∃ c, K.init (if bosonic = true then "freq_bosonic" else "freq_fermionic") beta = some c := by
  unfold MeshIs at hw
  unfold ContSet.init Ana.initMaxEnt
  cases bosonic
  · simp only [Bool.false_eq_true, if_false] at hw
    simp only [Bool.false_eq_true, if_false, true_or, if_true, String.reduceEq, false_and, hw]
    exact ⟨_, rfl⟩
  · simp only [if_true] at hw
    rw [show max K.wmin 0 = if K.wmin < 0 then 0 else K.wmin by
      split_ifs with h1 <;> [exact max_eq_right h1.le; exact max_eq_left (not_lt.1 h1)]] at hw
    simp only [or_true, if_true, true_and, hw]
    exact ⟨_, rfl⟩

theorem section_returns {α : Type} (K : Option (ContSet × Bool)) (bosonic : Bool) (beta : ℝ) (run : Ana.Cfg → Option α)
    (hmesh : ∀ K0 b, K = some (K0, b) → ∃ w, MeshIs K0 bosonic w)
    (hrun : ∀ K0 c, K = some (K0, true) → MeshIs K0 bosonic c.w → c.mode = (if bosonic = true then "freq_bosonic" else "freq_fermionic") → (run c).isSome) :
    ∃ y, section_ K (if bosonic = true then "freq_bosonic" else "freq_fermionic") beta run = some y ∧ (y.isSome = true ↔ ∃ K0, K = some (K0, true)) := by
  unfold section_
  cases K with
  | none => exact ⟨none, rfl, by simp⟩
  | some K =>
    obtain ⟨K0, b⟩ := K
    obtain ⟨w, hw⟩ := hmesh K0 b rfl
    obtain ⟨c, hc⟩ := init_some K0 bosonic beta w hw
    simp only [hc, Option.bind_some, ifAsked]
    cases b with
    | false => exact ⟨none, rfl, by simp⟩
    | true =>
      have hci : MeshIs K0 bosonic c.w ∧ c.mode = (if bosonic = true then "freq_bosonic" else "freq_fermionic") := by
        cases bosonic
        · exact ⟨(init_fermi K0 beta c hc).1, (init_fermi K0 beta c hc).2.1⟩
        · exact ⟨(init_bose K0 beta c hc).1, (init_bose K0 beta c hc).2.1⟩
      obtain ⟨o, ho⟩ := Option.isSome_iff_exists.1 (hrun K0 c rfl hci.1 hci.2)
      refine ⟨some o, by simp [ho], by simp⟩

theorem kkt_length (spec w : List ℝ) (kind : String) (r : List ℂ) (h : Ana.kkt spec w kind = some r) : r.length = w.length := by
  unfold Ana.kkt at h
  split_ifs at h
  rw [Option.bind_eq_some_iff] at h
  obtain ⟨dw, -, h⟩ := h
  have := (DGA.Mf.mapM_getElem? _ _ _ h).1
  simpa using this

theorem orZeros_fermi_length (solve : Ana.Solver) (c : Ana.Cfg) (hm : c.mode = "freq_fermionic") (F : Int → ℂ) (N : Nat) :
    (orZeros c.w (Ana.contSingle solve c (samplesF F N)).1).length = c.w.length := by
  rw [contSingle_fermi solve c hm]
  unfold orZeros fermiCont
  rcases h : (solve (freqs c.beta (min c.nFit N)) c.w (valsAt (min c.nFit N) F) (flatModel c.w 1)).bind fun A => Ana.kkt A c.w "fermionic" with _ | r
  · simp
  · rw [Option.bind_eq_some_iff] at h
    obtain ⟨A, -, h⟩ := h
    exact kkt_length _ _ _ _ h

theorem getGwk_lengths (w : List ℝ) (rows : List (List ℂ)) (ek : List ℝ) (mu : ℝ) (hek : ek.length = rows.length) (h : ∀ r ∈ rows, r.length = w.length) :
    ∀ r ∈ getGwk w rows ek mu, r.length = w.length := by
  intro r hr
  unfold getGwk at hr
  rw [List.mem_map] at hr
  obtain ⟨k, hk, rfl⟩ := hr
  rw [List.mem_range] at hk
  have : (rowAt rows k) ∈ rows := by
    unfold rowAt
    split_ifs with h1
    · rw [List.getD_eq_getElem?_getD, List.getElem?_eq_getElem (by omega)]
      exact List.getElem_mem _
    · rw [List.getD_eq_getElem?_getD, List.getElem?_eq_getElem (by omega)]
      exact List.getElem_mem _
  simp [h _ this]

/-- the bubble of the optical conductivity exists on every mesh with an odd number of points and zero in the middle -/
theorem realf_mesh_returns (M : Nat) (hM : 0 < M) (f : Int → ℝ) (hf : Optics.OddMesh M f) (beta : ℝ) (gwk : List (List ℂ)) (hg : ∀ r ∈ gwk, r.length = 2 * M + 1)
    (lv2 : List ℂ) (hl : lv2.length = gwk.length) (last : ℝ) (hlast : (Optics.meshOf M f).getLast? = some last) :
    (Optics.chijjBubbleRealf (Optics.meshOf M f) gwk lv2 beta (last / 3)).isSome := by
  have hlast' : last = f M := by
    unfold Optics.meshOf at hlast
    rw [List.getLast?_eq_getElem?] at hlast
    simp only [List.length_map, List.length_range, List.getElem?_map] at hlast
    rw [List.getElem?_range (by omega)] at hlast
    simp only [Option.map_some, Option.some.injEq] at hlast
    rw [← hlast, show ((2 * M + 1 - 1 : Nat) : Int) - M = M by omega]
  have e : gwk = (gwk.map fun r => fun j : Int => r.getD (j + M).toNat 0).map (Optics.oddRow M) := by
    rw [List.map_map]
    symm
    conv_rhs => rw [← List.map_id gwk]
    apply List.map_congr_left
    intro r hr
    apply List.ext_getElem?
    intro k
    simp only [Function.comp_apply, Optics.oddRow, id, List.getElem?_map]
    by_cases hk : k < 2 * M + 1
    · rw [List.getElem?_range hk, List.getElem?_eq_getElem (by rw [hg r hr]; exact hk)]
      simp only [Option.map_some, Option.some.injEq]
      rw [show ((k : Int) - M + M).toNat = k by omega, List.getD_eq_getElem?_getD, List.getElem?_eq_getElem (by rw [hg r hr]; exact hk)]
      rfl
    · rw [List.getElem?_eq_none (by simp; omega), List.getElem?_eq_none (by rw [hg r hr]; omega)]
      rfl
  have hpos : 0 < f M := by
    have := hf.incr 0 M (by omega) (by omega) (by omega)
    rwa [hf.zero] at this
  obtain ⟨c, -, -, hv⟩ := Optics.mesh_value M f hf beta (last / 3) (by rw [hlast']; linarith) (by rw [hlast']; linarith)
    (gwk.map fun r => fun j : Int => r.getD (j + M).toNat 0) lv2 (by simpa using hl)
  rw [e, hv]
  rfl

section

variable {fs : Fs} {ty path f1 : String} {f2 : Option String} {S : Settings} [NeZero S.nx] [NeZero S.ny] [NeZero S.nz]
variable (I : Files fs ty path f1 f2 S)
variable (out : MainOut) (h : calcFrom S I.d ⟨I.w, I.c, I.sh, I.as⟩ (I.obj "dens" I.D) (I.obj "magn" I.M) = .ok out)

include h in
/-- **C142 (e).** dga_max_ent.py returns if a self-energy of at least 20 positive frequencies was stored, the chemical potential is found, there are no more
    ranks than irreducible momenta, every subsection has a mesh – for the self-energy, if it is continued, one with zero in the middle –, the
    interpolation accepts its points and, on several ranks, the fermionic optimisations succeed. -/
theorem maxEnt_returns (T : Tools) (newton : (ℝ → ℝ) → ℝ → Option ℂ) (M : MaxEntPlan) (h20 : 20 ≤ I.c + I.sh) (mu : ℝ)
    (hmu : gfMu newton (loadedSigma out I.beta) (bandOf S) I.n 0 = some mu) (mp : Bz.Arr3 Nat) (hmp : fbz2irrk S.nx S.ny S.nz S.syms = some mp)
    (hR : S.ranks ≤ (uniq (flat3 mp)).length)
    (hmesh : (∀ K b, (M.s = some (K, b) ∨ M.g = some (K, b)) → ∃ w, MeshIs K false w) ∧ ∀ K b, (M.d = some (K, b) ∨ M.m = some (K, b)) → ∃ w, MeshIs K true w)
    (hodd : ∀ K, M.s = some (K, true) → ∃ n f, 0 < n ∧ Optics.OddMesh n f ∧ MeshIs K false (Optics.meshOf n f)) (hinterp : ∀ l, (T.interp l).isSome)
    (hsolve : S.ranks = 1 ∨ ∀ name K w, (M.s = some (K, true) ∨ M.g = some (K, true)) → MeshIs K false w → ∀ im data model,
      ∃ A, T.solve name im w data model = some A ∧ (Ana.kkt A w "fermionic").isSome) :
    ∃ y, maxEntMain S T newton I.d out M = some y ∧ y.mu = mu ∧ (y.s.isSome = true ↔ ∃ K, M.s = some (K, true)) ∧ (y.g.isSome = true ↔ ∃ K, M.g = some (K, true)) ∧
      (y.d.isSome = true ↔ ∃ K, M.d = some (K, true)) ∧ (y.m.isSome = true ↔ ∃ K, M.m = some (K, true)) := by
  obtain ⟨g, hgf, hg, -, hs, -⟩ := cont_tables I out h h20 mu
  obtain ⟨mp', hmp', hchi⟩ := chi_saved I out h
  rw [hmp] at hmp'
  cases hmp'
  obtain ⟨rd, -⟩ := hchi out.run.chi.dens (Or.inl rfl)
  obtain ⟨rm, -⟩ := hchi out.run.chi.magn (Or.inr rfl)
  have hfermi : ∀ (name : String) (K0 : ContSet) (c : Ana.Cfg) (G : Pt → Int → ℂ) (N : Nat), (M.s = some (K0, true) ∨ M.g = some (K0, true)) → MeshIs K0 false c.w →
      c.mode = "freq_fermionic" → ∃ t, contGrid S (T.solve name) c (flat3 mp) (table S.nx S.ny S.nz fun i j k => samplesF (G (i, j, k)) N) = some t := by
    intro name K0 c G N hK hw hm
    refine (contGrid_table S I.ranks mp hmp nk_pos (T.solve name) c (fun p => samplesF (G p) N) (2 * N) fun p => samplesF_length _ _).2 hR ?_
    rcases hsolve with h1 | h1
    · exact Or.inl h1
    · right; right
      intro p hp
      rw [contSingle_fermi _ c hm]
      obtain ⟨A, hA, hk⟩ := h1 name K0 c.w hK hw (freqs c.beta (min c.nFit N)) (valsAt (min c.nFit N) (G p)) (flatModel c.w 1)
      unfold fermiCont
      rw [hA]
      exact hk
  have hbose : ∀ (name : String) (rows : List (List ℂ)) (G : Pt → Int → ℂ),
      reshape3 rows S.nx S.ny S.nz = (table S.nx S.ny S.nz fun i j k => samplesB (G (i, j, k)) I.w) → ∀ c : Ana.Cfg, c.mode = "freq_bosonic" →
      ((contGrid S (T.solve name) c (flat3 mp) (reshape3 rows S.nx S.ny S.nz)).map fun t => (⟨t, c.w⟩ : GridOut)).isSome := by
    intro name rows G hrow c hm
    obtain ⟨t, ht⟩ := (contGrid_table S I.ranks mp hmp nk_pos (T.solve name) c (fun p => samplesB (G p) I.w) (2 * I.w + 1) fun p => samplesB_length _ _).2 hR
      (Or.inr (Or.inl hm))
    rw [hrow, ht]
    rfl
  obtain ⟨ys, es, is⟩ := section_returns M.s false I.beta (contSwk S T I.n I.beta (flat3 mp) (loadedSigma out I.beta)) (fun K0 b hK => hmesh.1 K0 b (Or.inl hK)) (by
    intro K0 c hK hw hm
    obtain ⟨n, f, hn, hf', hw'⟩ := hodd K0 hK
    have hcw : c.w = Optics.meshOf n f := Option.some.inj (hw.symm.trans hw')
    obtain ⟨t, ht⟩ := hfermi "s_dga" K0 c (fun p m => sigmaAt S (loadedSigma out I.beta) p.1 p.2.1 p.2.2 m - ((loadedSigma out I.beta).smom0 : ℂ)) c.nFit (Or.inl hK) hw hm
    have hval := ((contGrid_table S I.ranks mp hmp nk_pos (T.solve "s_dga") c
      (fun p => samplesF ((fun p m => sigmaAt S (loadedSigma out I.beta) p.1 p.2.1 p.2.2 m - ((loadedSigma out I.beta).smom0 : ℂ)) p) c.nFit) (2 * c.nFit)
      fun p => samplesF_length _ _).1 t ht).2.2
    obtain ⟨l, hl, ht', hf⟩ := contGrid_shape mp hmp _ _ _ _ ht
    have hrows : ∀ r ∈ l, r.length = c.w.length := by
      intro r hr
      obtain ⟨i, hi⟩ := List.mem_iff_getElem?.1 hr
      have hi' : i < S.nx * S.ny * S.nz := hl ▸ (List.getElem?_eq_some_iff.1 hi).1
      obtain ⟨b1, b2, b3, _⟩ := pt_bounds S.nx S.ny S.nz i hi'
      have hp : InGrid S.nx S.ny S.nz (pt S.ny S.nz i) := ⟨b1, b2, b3⟩
      obtain ⟨q, -, -, hq⟩ := hval _ hp
      rw [ht', at3_reshape l hl _ hp, Pf.linP_pt S.nx S.ny S.nz i hi', hi] at hq
      rw [Option.some.inj hq]
      exact orZeros_fermi_length _ c hm _ _
    unfold contSwk
    rw [hs c.nFit, ht]
    simp only [Option.bind_some, hf, realGf]
    obtain ⟨last, hlast⟩ : ∃ last, c.w.getLast? = some last := by
      rw [hcw]
      unfold Optics.meshOf
      rw [List.getLast?_eq_getElem?]
      exact ⟨_, List.getElem?_eq_getElem (by simp)⟩
    simp only [hlast, Option.bind_some]
    have hmuw : ∀ mu' : ℝ, ∃ q, Optics.chijjBubbleRealf c.w
        (getGwk c.w ((l.map fun r => r.map fun z => z + ((loadedSigma out I.beta).smom0 : ℂ)).map fun r => r.map fun z => z - Complex.I * ((0.04 : ℝ) : ℂ)) (bandOf S) mu')
        ((flat3 (lightOf S 0)).map fun x => x * x) I.beta (last / 3) = some q := by
      intro mu'
      rw [← Option.isSome_iff_exists, hcw]
      rw [hcw] at hlast
      refine realf_mesh_returns n hn f hf' I.beta _ ?_ _ ?_ last hlast
      · intro r hr
        have := getGwk_lengths (Optics.meshOf n f) _ (bandOf S) mu' (by rw [bandOf_length]; simp [hl]) (by
          intro r hr
          rw [List.mem_map] at hr
          obtain ⟨r', hr', rfl⟩ := hr
          rw [List.mem_map] at hr'
          obtain ⟨r'', hr'', rfl⟩ := hr'
          simp [hrows r'' hr'', hcw]) r hr
        rw [this]
        simp [Optics.meshOf]
      · rw [lightOf, flat3_table]
        simp [getGwk, bandOf_length]
    obtain ⟨q, hq⟩ := hmuw (adjustMuRealF T.minimize 0 I.n ((l.map fun r => r.map fun z => z + ((loadedSigma out I.beta).smom0 : ℂ)).map fun r => r.map fun z => z - Complex.I * ((0.04 : ℝ) : ℂ)) c.w (bandOf S))
    simp only [hq, Option.bind_some]
    obtain ⟨hh, hh'⟩ := Option.isSome_iff_exists.1 (hinterp (Optics.sigmaNodes q.1 q.2))
    rw [hh']
    rfl)
  obtain ⟨yg, eg, ig⟩ := section_returns M.g false I.beta (fun c => (contGrid S (T.solve "g_dga") c (flat3 mp) (reshape3 (gFullArr g.core g.asympt) S.nx S.ny S.nz)).map
      fun t => (⟨t, c.w⟩ : GridOut)) (fun K0 b hK => hmesh.1 K0 b (Or.inr hK)) (by
    intro K0 c hK hw hm
    obtain ⟨t, ht⟩ := hfermi "g_dga" K0 c (fun p => dyson S I.beta mu (sigmaAt S (loadedSigma out I.beta)) p.1 p.2.1 p.2.2) _ (Or.inr hK) hw hm
    rw [hg, ht]
    rfl)
  obtain ⟨yd, ed, id⟩ := section_returns M.d true I.beta (fun c => (contGrid S (T.solve "chi_d") c (flat3 mp) (reshape3 out.run.chi.dens S.nx S.ny S.nz)).map
      fun t => (⟨t, c.w⟩ : GridOut)) (fun K0 b hK => hmesh.2 K0 b (Or.inl hK))
      (fun K0 c hK hw hm => hbose "chi_d" out.run.chi.dens (chiAt S I.w out.run.chi.dens) rd c hm)
  obtain ⟨ym, em, im⟩ := section_returns M.m true I.beta (fun c => (contGrid S (T.solve "chi_m") c (flat3 mp) (reshape3 out.run.chi.magn S.nx S.ny S.nz)).map
      fun t => (⟨t, c.w⟩ : GridOut)) (fun K0 b hK => hmesh.2 K0 b (Or.inr hK))
      (fun K0 c hK hw hm => hbose "chi_m" out.run.chi.magn (chiAt S I.w out.run.chi.magn) rm c hm)
  refine ⟨⟨mu, ys, yg, yd, ym⟩, ?_, rfl, is, ig, id, im⟩
  unfold maxEntMain
  rw [I.d_n, I.d_beta, hmp]
  simp only [numOf, Complex.ofReal_re, Option.bind_eq_some_iff, Option.map_eq_some_iff]
  exact ⟨mu, hmu, g, hgf, ys, es, yg, eg, yd, ed, ym, em, rfl⟩

include h in
/-- **C142 (g).** On a mesh of the program from `-wmax` to `wmax` with an even number of points dga_max_ent.py does not return if the self-energy is continued: the
    bubble of the optical conductivity is asked for a window that starts before the mesh.  (Ten points or more; for the Lorentzian mesh a third of `wmax`
    must be nearer to the second positive frequency than to the first.) -/
theorem maxEnt_even (T : Tools) (newton : (ℝ → ℝ) → ℝ → Option ℂ) (M : MaxEntPlan) (K : ContSet) (hK : M.s = some (K, true)) (hsym : K.wmin = -K.wmax)
    (hpos : 0 < K.wmax) (n : Nat) (hn : 5 ≤ n) (heven : K.nwr = 2 * n)
    (hkind : K.mesh ∈ ["hyperbolic", "linear", "tan"] ∨ K.mesh = "lorentzian" ∧ (∃ c, K.cut = some c ∧ 0 < c ∧ c < 1 / 2) ∧
      ∀ w, MeshIs K false w → ∃ a b, w[n]? = some a ∧ w[n + 1]? = some b ∧ |b - K.wmax / 3| < |a - K.wmax / 3|) : maxEntMain S T newton I.d out M = none := by
  obtain ⟨w0, hw0, hlast0, hnear, hraise⟩ := Optics.kinds_even K.mesh K.wmax hpos n (by omega) K.cut (by
    rcases hkind with hk | ⟨hk, hk', -⟩
    · exact Or.inl hk
    · exact Or.inr ⟨hk, hk'⟩)
  have hmesh : MeshIs K false w0 := by
    unfold MeshIs
    simp only [Bool.false_eq_true, if_false, hsym, heven]
    exact hw0
  have hnear' : ∃ a b, w0[n]? = some a ∧ w0[n + 1]? = some b ∧ |b - K.wmax / 3| < |a - K.wmax / 3| := by
    rcases hkind with hk | ⟨-, -, hk⟩
    · refine hnear ⟨?_, hn⟩
      rintro e
      rw [e] at hk
      simp at hk
    · exact hk w0 hmesh
  obtain ⟨a, b, ha, hb, hab⟩ := hnear'
  have hl0 : w0.length = 2 * n := by
    obtain ⟨w1, hw1, hi, -⟩ := Optics.kinds_antisym K.mesh K.wmax hpos (2 * n) (by omega) K.cut (by
      rcases hkind with hk | ⟨hk, hk', -⟩
      · exact Or.inl hk
      · exact Or.inr ⟨hk, hk'⟩)
    rw [hw0] at hw1
    cases hw1
    exact hi.1
  by_contra hne
  obtain ⟨y, hy⟩ := Option.ne_none_iff_exists'.1 hne
  obtain ⟨h20, -, mp, hmp, g, -, es, -⟩ := cont_inputs I out h T newton M y hy
  obtain ⟨-, -, -, -, hs, -⟩ := cont_tables I out h h20 y.mu
  obtain ⟨c, o, ho, hcw, hcm⟩ : ∃ c o, contSwk S T I.n I.beta (flat3 mp) (loadedSigma out I.beta) c = some o ∧ c.w = w0 ∧
      c.mode = "freq_fermionic" := by
    rw [hK] at es
    unfold section_ at es
    simp only [Option.bind_eq_some_iff, ifAsked, if_true, Option.map_eq_some_iff] at es
    obtain ⟨c, hc, o, ho, -⟩ := es
    obtain ⟨e1, e2, -⟩ := init_fermi K I.beta c hc
    exact ⟨c, o, ho, Option.some.inj (e1.symm.trans hmesh), e2⟩
  unfold contSwk at ho
  rw [hs c.nFit] at ho
  simp only [Option.bind_eq_some_iff] at ho
  obtain ⟨t, ht, r, hr, last, hlast, q, hq, -⟩ := ho
  have hval := ((contGrid_table S I.ranks mp hmp nk_pos (T.solve "s_dga") c
    (fun p => samplesF ((fun (p : Pt) m => sigmaAt S (loadedSigma out I.beta) p.1 p.2.1 p.2.2 m - ((loadedSigma out I.beta).smom0 : ℂ)) p) c.nFit) (2 * c.nFit)
    fun p => samplesF_length _ _).1 t ht).2.2
  obtain ⟨l, hl, ht', hf⟩ := contGrid_shape mp hmp _ _ _ _ ht
  have hrows : ∀ r ∈ l, r.length = c.w.length := by
    intro r hr
    obtain ⟨i, hi⟩ := List.mem_iff_getElem?.1 hr
    have hi' : i < S.nx * S.ny * S.nz := hl ▸ (List.getElem?_eq_some_iff.1 hi).1
    obtain ⟨b1, b2, b3, _⟩ := pt_bounds S.nx S.ny S.nz i hi'
    have hp : InGrid S.nx S.ny S.nz (pt S.ny S.nz i) := ⟨b1, b2, b3⟩
    obtain ⟨q, -, -, hq⟩ := hval _ hp
    rw [ht', at3_reshape l hl _ hp, Pf.linP_pt S.nx S.ny S.nz i hi', hi] at hq
    rw [Option.some.inj hq]
    exact orZeros_fermi_length _ c hcm _ _
  rw [hf] at hq
  have hg := getGwk_lengths c.w ((l.map fun r => r.map fun z => z + ((loadedSigma out I.beta).smom0 : ℂ)).map fun r => r.map fun z =>
    z - Complex.I * ((0.04 : ℝ) : ℂ)) (bandOf S) r.1 (by rw [bandOf_length]; simp [hl]) (by
      intro r hr
      rw [List.mem_map] at hr
      obtain ⟨r', hr', rfl⟩ := hr
      rw [List.mem_map] at hr'
      obtain ⟨r'', hr'', rfl⟩ := hr'
      simp [hrows r'' hr''])
  have hgl : (getGwk c.w ((l.map fun r => r.map fun z => z + ((loadedSigma out I.beta).smom0 : ℂ)).map fun r => r.map fun z =>
    z - Complex.I * ((0.04 : ℝ) : ℂ)) (bandOf S) r.1).length = S.nx * S.ny * S.nz := by simp [getGwk, bandOf_length]
  generalize getGwk c.w ((l.map fun r => r.map fun z => z + ((loadedSigma out I.beta).smom0 : ℂ)).map fun r => r.map fun z =>
    z - Complex.I * ((0.04 : ℝ) : ℂ)) (bandOf S) r.1 = gwk at hq hg hgl
  have hpos : 0 < S.nx * S.ny * S.nz := nk_pos
  have hlv : ((flat3 (lightOf S 0)).map fun x => x * x).length = S.nx * S.ny * S.nz := by
    rw [lightOf, flat3_table]
    simp
  generalize ((flat3 (lightOf S 0)).map fun x => x * x) = lv at hq hlv
  rw [hcw] at hq hg hlast
  obtain rfl : K.wmax = last := Option.some.inj (hlast0.symm.trans hlast)
  obtain ⟨g0, gs, rfl⟩ : ∃ g0 gs, gwk = g0 :: gs := by
    cases gwk with
    | nil => exact absurd (hgl ▸ hpos) (by simp)
    | cons a b => exact ⟨a, b, rfl⟩
  obtain ⟨l0, ls, rfl⟩ : ∃ l0 ls, lv = l0 :: ls := by
    cases lv with
    | nil => exact absurd (hlv ▸ hpos) (by simp)
    | cons a b => exact ⟨a, b, rfl⟩
  rw [hraise a b ha hb hab I.beta g0 gs l0 ls (by rw [hg g0 List.mem_cons_self]; exact hl0)] at hq
  cases hq

omit h in
/-- **C142 (h).** The hypotheses of (e) and (f) on the meshes hold for every subsection with `wmin = -wmax` and an odd number of points, three or more – the settings
    the program starts from are of this kind: `tan`, 501 points from -15 to 15. -/
theorem symmetric_meshes (K : ContSet) (hsym : K.wmin = -K.wmax) (hpos : 0 < K.wmax) (n : Nat) (hn : 0 < n) (hodd : K.nwr = 2 * n + 1)
    (hkind : K.mesh ∈ ["hyperbolic", "linear", "tan"] ∨ K.mesh = "lorentzian" ∧ ∃ c, K.cut = some c ∧ 0 < c ∧ c < 1 / 2) :
    (∃ m f, 0 < m ∧ Optics.OddMesh m f ∧ MeshIs K false (Optics.meshOf m f)) ∧ ∃ w, MeshIs K true w := by
  constructor
  · obtain ⟨f, hf, -, -, hw⟩ := Optics.kinds_odd K.mesh K.wmax hpos n hn K.cut hkind
    refine ⟨n, f, hn, hf, ?_⟩
    unfold MeshIs
    simp only [Bool.false_eq_true, if_false, hsym, hodd]
    exact hw
  · unfold MeshIs
    rw [if_pos rfl, show max K.wmin 0 = 0 from max_eq_right (by linarith), hodd]
    rcases hkind with hk | ⟨hk, c, hc, h0, h1⟩
    · simp only [List.mem_cons, List.not_mem_nil, or_false] at hk
      rcases hk with hk | hk | hk
      · obtain ⟨m, hm, -⟩ := Ana.hyperbolic_isMesh 0 K.wmax hpos (2 * n + 1) (by omega)
        exact ⟨m, by simpa [hk, Ana.getWMesh] using hm⟩
      · exact ⟨_, by simp [hk, Ana.getWMesh, Ana.linearMesh]; rfl⟩
      · obtain ⟨m, hm, -⟩ := Ana.tan_isMesh 0 K.wmax hpos (2 * n + 1) (by omega)
        exact ⟨m, by simpa [hk, Ana.getWMesh] using hm⟩
    · obtain ⟨m, hm, -⟩ := Ana.lorentzian_isMesh 0 K.wmax hpos (2 * n + 1) (by omega) c h0 h1
      exact ⟨m, by simpa [hk, hc, Ana.getWMesh] using hm⟩

omit h in
/-- the continuation of the optical conductivity returns if the subsection has a mesh, `niw_cond` is not negative where it is used, and both optimisations
    succeed -/
theorem cond_returns (T : Tools) (beta : ℝ) (O : Optical) (K : ContSet) (minusOne : Bool) (nb nv : Nat) (hb : O.bubble.length = 2 * nb + 1)
    (hv : (vertOf O).length = 2 * nv + 1) (hneg : minusOne = true → 0 ≤ O.ranges.niwCond) (w : List ℝ) (hw : MeshIs K true w)
    (hsolve : ∀ im data model, (T.solve "cond" im w data model).isSome) : ∃ y, condCont T beta O K minusOne = some y := by
  have hbc : ∀ n N F, ∃ r, boseCont (T.solve "cond") beta w n N F = some r := by
    intro n N F
    obtain ⟨A, hA⟩ := Option.isSome_iff_exists.1 (hsolve (bfreqs beta n) (valsAt (n + 1) F) (flatModel w (F (-(N : Int))).re))
    unfold boseCont
    rw [hA]
    exact ⟨_, rfl⟩
  obtain ⟨b, hb'⟩ := hbc (min (if minusOne = true then O.ranges.niwCond.toNat else K.nFit) (O.bubble.length / 2)) (O.bubble.length / 2) (entryB O.bubble)
  obtain ⟨f, hf⟩ := hbc (min (if minusOne = true then O.ranges.niwCond.toNat else K.nFit) (O.bubble.length / 2))
    (max (O.bubble.length / 2) ((vertOf O).length / 2)) fun m => entryB O.bubble m + entryB (vertOf O) m
  exact ⟨⟨b, f, w⟩, (cond_iff T beta O K minusOne nb nv hb hv _).2 ⟨hneg, hw, hb', hf⟩⟩

omit h in
/-- **C142 (f).** A run that returns up to the continuations returns with them if the hypotheses of (e) hold for dga_max_ent.py and, for the optical
    conductivity, the subsection has a mesh on which the optimisations succeed. -/
theorem conts_returns (hfit : I.w ≤ I.sh + I.as) (P : Plan) (saveFq : Bool) (F : Option (Nat × Nat)) (fit : Fitter) (C : ContPlan) (T : Tools)
    (X : Chance S.nx S.ny S.nz) (x : OneOut S.nx S.ny S.nz) (fits : Option PolyFits)
    (hp : mainPoly fs ty path f1 f2 S P saveFq F fit X = .ok (x, fits))
    (hcond : ∀ K m1 O, C.cond = some (K, m1) → x.optics = some O → (m1 = true → 0 ≤ O.ranges.niwCond) ∧
      ∃ w, MeshIs K true w ∧ ∀ im data model, (T.solve "cond" im w data model).isSome)
    (hmax : ∀ M, C.maxEnt = some M → 20 ≤ I.c + I.sh ∧ (∃ mu, gfMu X.newton (loadedSigma x.main I.beta) (bandOf S) I.n 0 = some mu) ∧
      (∃ mp, fbz2irrk S.nx S.ny S.nz S.syms = some mp ∧ S.ranks ≤ (uniq (flat3 mp)).length) ∧
      ((∀ K b, (M.s = some (K, b) ∨ M.g = some (K, b)) → ∃ w, MeshIs K false w) ∧
        ∀ K b, (M.d = some (K, b) ∨ M.m = some (K, b)) → ∃ w, MeshIs K true w) ∧
      (∀ K, M.s = some (K, true) → ∃ n f, 0 < n ∧ Optics.OddMesh n f ∧ MeshIs K false (Optics.meshOf n f)) ∧ (∀ l, (T.interp l).isSome) ∧
      (S.ranks = 1 ∨ ∀ name K w, (M.s = some (K, true) ∨ M.g = some (K, true)) → MeshIs K false w → ∀ im data model,
        ∃ A, T.solve name im w data model = some A ∧ (Ana.kkt A w "fermionic").isSome)) :
    ∃ c, mainConts fs ty path f1 f2 S P saveFq F fit C T X = .ok (x, fits, c) ∧ (c.cond.isSome = true ↔ x.optics.isSome = true ∧ C.cond.isSome = true) ∧
      (∀ M, C.maxEnt = some M → ∃ y, c.maxEnt = some y ∧ (y.s.isSome = true ↔ ∃ K, M.s = some (K, true)) ∧ (y.g.isSome = true ↔ ∃ K, M.g = some (K, true)) ∧
        (y.d.isSome = true ↔ ∃ K, M.d = some (K, true)) ∧ (y.m.isSome = true ↔ ∃ K, M.m = some (K, true))) := by
  have hone := ((poly_split I P saveFq F fit X x fits).1 hp).1
  obtain ⟨a, ha, o, mu0, -, -, hcalc⟩ := one_parts I P saveFq X x hone
  have hc1 : ∃ c1, (match x.optics, C.cond with
      | some O, some (K, m1) => (numOf I.d.beta).bind fun beta => (condCont T beta O K m1).map some
      | _, _ => some none) = some c1 ∧ (c1.isSome = true ↔ x.optics.isSome = true ∧ C.cond.isSome = true) := by
    rcases hO : x.optics with _ | O
    · exact ⟨none, rfl, by simp⟩
    rcases hC : C.cond with _ | ⟨K, m1⟩
    · exact ⟨none, rfl, by simp⟩
    obtain ⟨g1, w, hw, g2⟩ := hcond K m1 O hC hO
    obtain ⟨l1, l2, l3⟩ := optics_sizes I hfit P saveFq X x hone O hO
    obtain ⟨nv, hnv⟩ : ∃ nv, (vertOf O).length = 2 * nv + 1 := by
      unfold vertOf
      rcases hv : O.vertex with _ | v
      · refine ⟨O.ranges.niwBubble.toNat, ?_⟩
        simp only [Option.map_none, Option.getD_none, List.length_map]
        omega
      · obtain ⟨k1, k2⟩ := l3 v hv
        refine ⟨O.ranges.niwCond.toNat, ?_⟩
        simp only [Option.map_some, Option.getD_some]
        omega
    obtain ⟨y, hy⟩ := cond_returns T I.beta O K m1 O.ranges.niwBubble.toNat nv (by omega) hnv g1 w hw g2
    refine ⟨some y, ?_, by simp⟩
    rw [I.d_beta]
    simp only [numOf, Complex.ofReal_re, Option.bind_some, hy, Option.map_some]
  obtain ⟨c1, e1, s1⟩ := hc1
  rcases hM : C.maxEnt with _ | M
  · refine ⟨⟨c1, none⟩, (conts_split I P saveFq F fit C T X x fits _).2 ⟨hp, ?_⟩, s1, by intro M hM; cases hM⟩
    unfold contsFrom
    rw [Option.bind_eq_some_iff]
    exact ⟨c1, e1, by rw [hM]; rfl⟩
  · obtain ⟨h20, ⟨mu, hmu⟩, ⟨mp, hmp, hR⟩, hmesh, hodd, hinterp, hsolve⟩ := hmax M hM
    obtain ⟨y, hy, -, s2⟩ := @maxEnt_returns fs ty path f1 f2 (withAs S a) _ _ _ (I.enlarge a ha) x.main hcalc T X.newton M h20 mu hmu mp hmp hR hmesh hodd hinterp hsolve
    refine ⟨⟨c1, some y⟩, (conts_split I P saveFq F fit C T X x fits _).2 ⟨hp, ?_⟩, s1, ?_⟩
    · unfold contsFrom
      rw [Option.bind_eq_some_iff]
      refine ⟨c1, e1, ?_⟩
      rw [hM]
      simp only
      rw [show maxEntMain S T X.newton I.d x.main M = some y from hy]
      rfl
    · intro M' hM'
      cases hM'
      exact ⟨y, rfl, s2⟩

end

end DGA.Whole
