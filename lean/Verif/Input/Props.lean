import Verif.Input.Model
import Verif.Matsubara.Props2
import Verif.Symm.Props3
import Verif.Config.Props

/-
  C102, C103: the DMFT input of a run.
-/

noncomputable section

namespace DGA.Inp

open DGA.Fp (NPoint)

/-- Specification: the array `[w, v, v']` of the function `F` of Matsubara indices, `-niw ≤ w ≤ niw`, `-niv ≤ v, v' < niv`. -/
def tab (niw niv : Nat) (F : Int → Int → Int → ℂ) : List (List (List ℂ)) :=
  (List.range (2 * niw + 1)).map fun w : Nat => (List.range (2 * niv)).map fun v : Nat => (List.range (2 * niv)).map fun v' : Nat =>
    F ((w : Int) - niw) ((v : Int) - niv) ((v' : Int) - niv)

/-- Every array of shape `(2 niw + 1, 2 niv, 2 niv)` is of this form, so the theorems below cover all of them. -/
theorem tab_surjective (niw niv : Nat) (m : List (List (List ℂ))) (h0 : m.length = 2 * niw + 1)
    (h1 : ∀ p ∈ m, p.length = 2 * niv ∧ ∀ r ∈ p, r.length = 2 * niv) :
    ∃ F, m = tab niw niv F := by
  refine ⟨fun w v v' => ((m.getD (w + niw).toNat []).getD (v + niv).toNat []).getD (v' + niv).toNat 0, ?_⟩
  apply List.ext_getElem
  · simp [tab, h0]
  · intro i hi1 hi2
    have hp := h1 m[i] (List.getElem_mem hi1)
    simp only [tab, List.getElem_map, List.getElem_range]
    apply List.ext_getElem
    · simp [hp.1]
    · intro j hj1 hj2
      have hr := hp.2 m[i][j] (List.getElem_mem hj1)
      simp only [List.getElem_map, List.getElem_range]
      apply List.ext_getElem
      · simp [hr]
      · intro k hk1 hk2
        simp only [List.getElem_map, List.getElem_range]
        simp [List.getD_eq_getElem?_getD, List.getElem?_eq_getElem hi1, List.getElem?_eq_getElem hj1, List.getElem?_eq_getElem hk1]

theorem cutV_range {α : Type} (n c : Nat) (hc : c ≤ n) (f : Int → α) :
    Mf.cutV ((List.range (2 * n)).map fun k : Nat => f ((k : Int) - n)) (c : Int) =
      (List.range (2 * c)).map fun k : Nat => f ((k : Int) - c) := by
  obtain ⟨h1, h2⟩ := Mf.cutV_value ((List.range (2 * n)).map fun k : Nat => f ((k : Int) - n)) n (by simp) c hc
  apply List.ext_getElem
  · simp [h1]
  · intro i hi1 hi2
    rw [h1] at hi1
    have := h2 ((i : Int) - c) (by omega) (by omega)
    unfold Mf.atF at this
    rw [h1, List.length_map, List.length_range] at this
    rw [show 2 * c / 2 = c by omega, show 2 * n / 2 = n by omega, if_pos (by omega), if_pos (by omega),
      show ((i : Int) - c + (c : Nat)).toNat = i by omega,
      show ((i : Int) - c + (n : Nat)).toNat = i + n - c by omega] at this
    rw [List.getElem?_eq_getElem (by rw [h1]; omega), List.getElem?_eq_getElem (by simp; omega), Option.some.injEq] at this
    rw [this]
    simp only [List.getElem_map, List.getElem_range]
    congr 1; omega

theorem cutW_range {α : Type} (n c : Nat) (hc : c ≤ n) (f : Int → α) :
    Mf.cutW ((List.range (2 * n + 1)).map fun k : Nat => f ((k : Int) - n)) (c : Int) =
      (List.range (2 * c + 1)).map fun k : Nat => f ((k : Int) - c) := by
  obtain ⟨h1, h2⟩ := Mf.cutW_value ((List.range (2 * n + 1)).map fun k : Nat => f ((k : Int) - n)) n (by simp) c hc
  apply List.ext_getElem
  · simp [h1]
  · intro i hi1 hi2
    rw [h1] at hi1
    have := h2 ((i : Int) - c) (by omega)
    unfold Mf.atB at this
    rw [h1, List.length_map, List.length_range] at this
    rw [show (2 * c + 1) / 2 = c by omega, show (2 * n + 1) / 2 = n by omega, if_pos (by omega), if_pos (by omega),
      show ((i : Int) - c + (c : Nat)).toNat = i by omega,
      show ((i : Int) - c + (n : Nat)).toNat = i + n - c by omega] at this
    rw [List.getElem?_eq_getElem (by rw [h1]; omega), List.getElem?_eq_getElem (by simp; omega), Option.some.injEq] at this
    rw [this]
    simp only [List.getElem_map, List.getElem_range]
    congr 1; omega

theorem cutIv_tab (ch : String) (b u : ℂ) (sel : Option (List Int)) (niw niv c : Nat) (hc : c ≤ niv) (h0 : 0 < c) (F : Int → Int → Int → ℂ) :
    cutIv ⟨ch, tab niw niv F, b, u, sel⟩ c = some ⟨ch, tab niw c F, b, u, sel⟩ := by
  unfold cutIv
  rw [if_neg (by simp [tab]; omega)]
  dsimp only
  have h1 : ((tab niw niv F).map fun p => p.map fun r => Mf.cutV r (c : Int)) =
      (List.range (2 * niw + 1)).map fun w : Nat => (List.range (2 * niv)).map fun v : Nat => (List.range (2 * c)).map fun v' : Nat =>
        F ((w : Int) - niw) ((v : Int) - niv) ((v' : Int) - c) := by
    unfold tab
    rw [List.map_map]
    refine List.map_congr_left fun w _ => ?_
    dsimp only [Function.comp]
    rw [List.map_map]
    refine List.map_congr_left fun v _ => ?_
    exact cutV_range niv c hc fun v' => F ((w : Int) - niw) ((v : Int) - niv) v'
  rw [h1, if_neg (by simp; omega), List.map_map]
  congr 2
  unfold tab
  refine List.map_congr_left fun w _ => ?_
  exact cutV_range niv c hc fun v => (List.range (2 * c)).map fun v' : Nat => F ((w : Int) - niw) v ((v' : Int) - c)

theorem cutIw_tab (ch : String) (b u : ℂ) (niw niv c : Nat) (hc : c ≤ niw) (h0 : 0 < niv) (F : Int → Int → Int → ℂ) :
    cutIwArr ⟨ch, tab niw niv F, b, u, none⟩ c = some ⟨ch, tab c niv F, b, u, none⟩ := by
  unfold cutIwArr
  rw [if_neg (by
    simp only [tab, List.mem_map, not_exists, not_and, not_or]
    rintro p ⟨w, -, rfl⟩
    constructor
    · simp; omega
    · simp; omega)]
  unfold Fp.cutIw
  dsimp only
  congr 2
  exact cutW_range niw c hc fun w => (List.range (2 * niv)).map fun v : Nat => (List.range (2 * niv)).map fun v' : Nat =>
    F w ((v : Int) - niv) ((v' : Int) - niv)

theorem sym_tab (ch : String) (b u : ℂ) (sel : Option (List Int)) (niw niv : Nat) (F : Int → Int → Int → ℂ) :
    symVVp ⟨ch, tab niw niv F, b, u, sel⟩ = ⟨ch, tab niw niv fun w v v' => (1 / 2) * (F w v v' + F w v' v), b, u, sel⟩ := by
  unfold symVVp tab
  dsimp only
  congr 1
  rw [List.map_map]
  refine List.map_congr_left fun w _ => ?_
  dsimp only [Function.comp]
  apply List.ext_getElem
  · simp [transp]
  · intro i hi1 hi2
    simp only [List.length_map, List.length_range] at hi2
    apply List.ext_getElem
    · simp [transp]
    · intro j hj1 hj2
      simp only [List.getElem_map, List.getElem_range, List.length_map, List.length_range] at hj2
      simp [transp, List.getD_eq_getElem?_getD, hi2, hj2]

theorem setFromLfp_asympt (b : Cfg.Box) (lfpNiv lfpNw : Nat) (b' : Cfg.Box) (h : b.setFromLfp lfpNiv lfpNw = some b') :
    b'.nivAsympt = if b.nivAsympt ≤ 0 then b'.nivShell + b'.nivCore + b'.niwCore * 2 else b.nivAsympt := by
  unfold Cfg.Box.setFromLfp at h
  by_cases h1 : b.nivCore = -1 <;> by_cases h2 : b.niwCore = -1 <;> by_cases h3 : b.nivCore > lfpNiv <;>
    by_cases h4 : b.niwCore > ((lfpNw / 2 : Nat) : Int) <;> by_cases h5 : b.nivAsympt ≤ 0 <;>
    simp only [h1, h2, h3, h4, h5, if_true, if_false, Option.bind_eq_bind, Option.bind_some, Option.bind_none] at h ⊢ <;>
    simp at h <;> (try subst h) <;> simp [Cfg.Box.nivFull]

/-- **C102.** `build_g2_obj`, for input arrays of any size (the magnetic one at least as large as the cut): the box sizes are the
    requested ones, or those of the density data where none was requested; both objects hold exactly the input values at the
    Matsubara indices of that box, symmetrised in `v ↔ v'` if asked for. -/
theorem buildG2_value (box : Cfg.Box) (sym : Bool) (d : Dict) (b u : ℂ) (hb : d.beta = .num b) (hu : d.u = .num u)
    (wD vD wM vM : Nat) (D M : Int → Int → Int → ℂ) (hD : d.dens = some (.a3 (tab wD vD D))) (hM : d.magn = some (.a3 (tab wM vM M)))
    (c w : Nat) (hc : box.nivCore = c ∨ box.nivCore = -1 ∧ c = vD) (hw : box.niwCore = w ∨ box.niwCore = -1 ∧ w = wD)
    (h0 : 0 < c) (hcD : c ≤ vD) (hcM : c ≤ vM) (hwD : w ≤ wD) (hwM : w ≤ wM) :
    ∃ box', buildG2 box sym d = some (box',
        ⟨"dens", tab w c (if sym then fun w v v' => (1 / 2) * (D w v v' + D w v' v) else D), b, u, none⟩,
        ⟨"magn", tab w c (if sym then fun w v v' => (1 / 2) * (M w v v' + M w v' v) else M), b, u, none⟩) ∧
      box'.nivCore = c ∧ box'.niwCore = w ∧ box'.nivShell = box.nivShell ∧
      box'.nivAsympt = if box.nivAsympt ≤ 0 then box.nivShell + c + w * 2 else box.nivAsympt := by
  have g1 : g2FromInput d "dens" = some ⟨"dens", tab wD vD D, b, u, none⟩ := by
    simp [g2FromInput, hD, hb, hu, Fp.newNPoint, Fp.knownChannels]
  have g2 : g2FromInput d "magn" = some ⟨"magn", tab wM vM M, b, u, none⟩ := by
    simp [g2FromInput, hM, hb, hu, Fp.newNPoint, Fp.knownChannels]
  have hniv : nivOf ⟨"dens", tab wD vD D, b, u, none⟩ = vD := by
    have hv : vD ≠ 0 := by omega
    simp [nivOf, tab, List.head?_range, hv]
  have hwn : (NPoint.wn (⟨"dens", tab wD vD D, b, u, none⟩ : G2)).length = 2 * wD + 1 := by
    have h1 : Mf.nFromMat (tab wD vD D) = wD := by simp [Mf.nFromMat, tab]; omega
    simp only [NPoint.wn, h1, Mf.wn, Py.arange]
    simp; omega
  obtain ⟨hs1, hs2⟩ := Cfg.setFromLfp_sizes box vD (2 * wD + 1)
  have hsome : (box.setFromLfp vD (2 * wD + 1)).isSome := by
    rw [hs1]
    constructor
    · rcases hc with h | h <;> omega
    · rcases hw with h | h <;> omega
  obtain ⟨box', hbox'⟩ := Option.isSome_iff_exists.1 hsome
  have hv : box'.nivCore = c ∧ box'.niwCore = w ∧ box'.nivShell = box.nivShell ∧
      box'.nivAsympt = if box.nivAsympt ≤ 0 then box.nivShell + c + w * 2 else box.nivAsympt := by
    obtain ⟨k1, k2, k3, -, -⟩ := hs2 box' hbox'
    have k4 := setFromLfp_asympt box vD (2 * wD + 1) box' hbox'
    have e1 : ((((2 * wD + 1) / 2 : Nat) : Int)) = wD := by omega
    rw [e1] at k2
    have q1 : box'.nivCore = c := by
      rw [k1]
      rcases hc with h | ⟨h, h'⟩
      · rw [h, if_neg (by omega)]
      · rw [h, if_pos rfl, h']
    have q2 : box'.niwCore = w := by
      rw [k2]
      rcases hw with h | ⟨h, h'⟩
      · rw [h, if_neg (by omega)]
      · rw [h, if_pos rfl, h']
    refine ⟨q1, q2, k3, ?_⟩
    rw [k4, q1, q2, k3]
  refine ⟨box', ?_, hv⟩
  unfold buildG2
  rw [g1, g2]
  simp only [Option.bind_some]
  rw [hniv, hwn, hbox']
  simp only [Option.bind_some, hv.1, hv.2.1]
  rw [cutIv_tab _ _ _ _ _ _ _ hcD h0, Option.bind_some, cutIw_tab _ _ _ _ _ _ hwD h0, Option.bind_some,
    cutIv_tab _ _ _ _ _ _ _ hcM h0, Option.bind_some, cutIw_tab _ _ _ _ _ _ hwM h0, Option.map_some]
  cases sym
  · rfl
  · simp only [if_true, sym_tab]

/-- **C102.** A box larger than the density data is refused. -/
theorem buildG2_refuses (box : Cfg.Box) (sym : Bool) (d : Dict) (wD vD : Nat) (D : Int → Int → Int → ℂ) (hv : 0 < vD)
    (hD : d.dens = some (.a3 (tab wD vD D))) (h : (vD : Int) < box.nivCore ∨ (wD : Int) < box.niwCore) :
    buildG2 box sym d = none := by
  unfold buildG2
  cases hg : g2FromInput d "dens" with
  | none => rfl
  | some gd =>
    rw [Option.bind_some]
    cases hm : g2FromInput d "magn" with
    | none => rfl
    | some gm =>
      rw [Option.bind_some]
      have hgd : gd.mat = tab wD vD D ∧ gd.wnSel = none := by
        simp only [g2FromInput, hD, if_true, Option.bind_some] at hg
        split at hg
        · simp only [Fp.newNPoint, Fp.knownChannels, if_true, List.mem_cons, true_or, Option.some.injEq] at hg
          rw [← hg]; exact ⟨rfl, rfl⟩
        · simp at hg
      have hniv : nivOf gd = vD := by
        have hv' : vD ≠ 0 := by omega
        simp [nivOf, hgd.1, tab, List.head?_range, hv']
      have hwn : (NPoint.wn gd).length = 2 * wD + 1 := by
        have h1 : Mf.nFromMat (tab wD vD D) = wD := by simp [Mf.nFromMat, tab]; omega
        simp only [NPoint.wn, hgd.1, hgd.2, h1, Mf.wn, Py.arange]
        simp; omega
      have : box.setFromLfp (nivOf gd) gd.wn.length = none := by
        rw [← Option.not_isSome_iff_eq_none, hniv, hwn, (Cfg.setFromLfp_sizes box vD (2 * wD + 1)).1]
        rintro ⟨h1, h2⟩
        rcases h with h | h <;> omega
      rw [this]; rfl

/-- **C102.** Restart: the dictionary saved by the run, loaded again with the sizes it was cut to (or with none), gives back the
    same two objects — also with the `v ↔ v'` symmetrisation, which is idempotent. -/
theorem restart_same (box : Cfg.Box) (sym : Bool) (d : Dict) (b u : ℂ) (hb : d.beta = .num b) (hu : d.u = .num u)
    (wD vD wM vM : Nat) (D M : Int → Int → Int → ℂ) (hD : d.dens = some (.a3 (tab wD vD D))) (hM : d.magn = some (.a3 (tab wM vM M)))
    (c w : Nat) (hc : box.nivCore = c ∨ box.nivCore = -1 ∧ c = vD) (hw : box.niwCore = w ∨ box.niwCore = -1 ∧ w = wD)
    (h0 : 0 < c) (hcD : c ≤ vD) (hcM : c ≤ vM) (hwD : w ≤ wD) (hwM : w ≤ wM)
    (box2 : Cfg.Box) (h2 : box2.nivCore = c ∨ box2.nivCore = -1) (h3 : box2.niwCore = w ∨ box2.niwCore = -1) :
    ∃ box' gd gm box'', buildG2 box sym d = some (box', gd, gm) ∧ buildG2 box2 sym (saveDict d gd gm) = some (box'', gd, gm) := by
  obtain ⟨box', h, -⟩ := buildG2_value box sym d b u hb hu wD vD wM vM D M hD hM c w hc hw h0 hcD hcM hwD hwM
  obtain ⟨box'', h', -⟩ := buildG2_value box2 sym (saveDict d
      ⟨"dens", tab w c (if sym then fun w v v' => (1 / 2) * (D w v v' + D w v' v) else D), b, u, none⟩
      ⟨"magn", tab w c (if sym then fun w v v' => (1 / 2) * (M w v v' + M w v' v) else M), b, u, none⟩) b u hb hu w c w c
    _ _ rfl rfl c w (h2.imp id fun h => ⟨h, rfl⟩) (h3.imp id fun h => ⟨h, rfl⟩) h0 le_rfl le_rfl le_rfl le_rfl
  refine ⟨box', _, _, box'', h, ?_⟩
  rw [h']
  cases sym
  · rfl
  · simp only [if_true]
    have : ∀ F : Int → Int → Int → ℂ, (fun w v v' => (1 / 2 : ℂ) * ((1 / 2) * (F w v v' + F w v' v) + (1 / 2) * (F w v' v + F w v v'))) =
        fun w v v' => (1 / 2) * (F w v v' + F w v' v) := by
      intro F; funext w v v'; ring
    rw [this D, this M]

/-- Non-vacuity and the missing check: magnetic data with fewer fermionic frequencies than the box is not refused; the result
    has the wrong number of frequencies. -/
theorem magn_size_unchecked (ch : String) (b u : ℂ) (niw niv c : Nat) (hc : niv < c) (h0 : 0 < niv) (F : Int → Int → Int → ℂ) :
    ∃ o, cutIv ⟨ch, tab niw niv F, b, u, none⟩ c = some o ∧ ∀ p ∈ o.mat, p.length = min (c - niv) (2 * niv) := by
  have hlen : ∀ {α : Type} (l : List α), l.length = 2 * niv → (Mf.cutV l c).length = min (c - niv) (2 * niv) := by
    intro α l hl
    rw [Mf.cutV_too_large l niv hl c hc, List.length_drop, hl]
    omega
  unfold cutIv
  rw [if_neg (by simp [tab]; omega)]
  dsimp only
  have hne : ¬ ∃ p ∈ (tab niw niv F).map fun p => p.map fun r => Mf.cutV r (c : Int), [] ∈ p := by
    rintro ⟨p, hp, he⟩
    rw [List.mem_map] at hp
    obtain ⟨q, hq, rfl⟩ := hp
    rw [List.mem_map] at he
    obtain ⟨r, hr, he⟩ := he
    have hrl : r.length = 2 * niv := by
      simp only [tab, List.mem_map] at hq
      obtain ⟨_, _, rfl⟩ := hq
      rw [List.mem_map] at hr
      obtain ⟨_, _, rfl⟩ := hr
      simp
    have := hlen r hrl
    rw [he, List.length_nil] at this
    omega
  rw [if_neg hne]
  refine ⟨_, rfl, ?_⟩
  intro p hp
  simp only [List.mem_map] at hp
  obtain ⟨m1, ⟨q, hq, rfl⟩, rfl⟩ := hp
  apply hlen
  simp only [tab, List.mem_map] at hq
  obtain ⟨_, _, rfl⟩ := hq
  simp

/-! ### C103: loading -/

/-- **C103.** Exactly four input types are accepted. -/
theorem load1p_types (fs : Fs) (ty path f1 : String) (f2 : Option String) (d : Dict) (h : load1p fs ty path f1 f2 = some d) :
    ty ∈ ["EDFermion", "w2dyn", "test", "default"] := by
  unfold load1p at h
  by_contra hn
  simp only [List.mem_cons, List.not_mem_nil, or_false, not_or] at hn
  rw [if_neg hn.1, if_neg hn.2.1, if_neg hn.2.2.1, if_neg hn.2.2.2] at h
  simp at h

/-- **C103.** w2dynamics input, first file: the Green's function and self-energy are the averages over the two spins of the first
    band, the filling is the nominal one or, if that is zero, the sum of the spin-diagonal occupations. -/
theorem loadW2dyn_value (fs : Fs) (path f1 f2 : String) (f h : H5) (hf : fs.h5 (path ++ f1) = some f) (hh : fs.h5 (path ++ f2) = some h)
    (N : Nat) (gu gd su sd : Nat → ℂ) (gr sr : List (List (List ℂ)))
    (hg : f.data "dmft-last/ineq-001/giw/value" = some (.a3 ([(List.range N).map gu, (List.range N).map gd] :: gr)))
    (hs : f.data "dmft-last/ineq-001/siw/value" = some (.a3 ([(List.range N).map su, (List.range N).map sd] :: sr)))
    (n beta u : ℂ) (mu : DS) (hn : f.attr "general.totdens" = some n) (hb : f.attr "general.beta" = some beta)
    (hu : f.attr "atoms.1.udd" = some u) (hm : f.data "dmft-last/mu/value" = some mu)
    (uu ud du dd : ℂ) (r1 r2 : List (List ℂ)) (r3 : List (List (List (List ℂ))))
    (ho : f.data "dmft-last/ineq-001/occ/value" = some (.a4 ([[uu, ud] :: r1, [du, dd] :: r2] :: r3))) :
    load1p fs "w2dyn" path f1 (some f2) = some
      ⟨.a1 ((List.range N).map fun k => (gu k + gd k) / 2), .a1 ((List.range N).map fun k => (su k + sd k) / 2),
        .num (if n = 0 then uu + dd else n), .num beta, .num u, mu,
        some (.a3 (Sym.readG2Full (h.g2 "dens"))), some (.a3 (Sym.readG2Full (h.g2 "magn")))⟩ := by
  have hmean : ∀ (a b : Nat → ℂ) (r : List (List (List ℂ))),
      spinMean (.a3 ([(List.range N).map a, (List.range N).map b] :: r)) = some (.a1 ((List.range N).map fun k => (a k + b k) / 2)) := by
    intro a b r
    simp only [spinMean, List.head?_cons, Option.bind_some, meanRows, Option.map_some, List.length_map, List.length_range]
    congr 2
    refine List.map_congr_left fun k hk => ?_
    rw [List.mem_range] at hk
    simp [List.getD_eq_getElem?_getD, hk]
  have hocc : occSum (.a4 ([[uu, ud] :: r1, [du, dd] :: r2] :: r3)) = some (uu + dd) := by
    simp [occSum, List.range_succ]
  have hG : getGiw f = some (.a3 ([(List.range N).map gu, (List.range N).map gd] :: gr)) := hg
  have hS : getSiw f = some (.a3 ([(List.range N).map su, (List.range N).map sd] :: sr)) := hs
  have hO : getOcc f = some (.a4 ([[uu, ud] :: r1, [du, dd] :: r2] :: r3)) := ho
  unfold load1p
  rw [if_neg (by decide), if_pos rfl]
  unfold loadW2dyn
  rw [hf, Option.bind_some, hG, Option.bind_some, hmean, Option.bind_some, hS, Option.bind_some, hmean, Option.bind_some]
  simp only [getTotdens, getBeta, getUdd, getMu, hn, hb, hu, hm, Option.bind_some, hO, hocc, hh, Option.map_some]
  split <;> rfl

/-- **C103, C102.** From the symmetrised file to the vertex objects: with w2dynamics input whose second file was written by the
    symmetrisation (sizes `n4iwf`, `n4iwb`), the objects of `build_g2_obj` hold at the Matsubara indices `(w, v, v')` the
    symmetrised values at the array indices `(v + n4iwf, v' + n4iwf, w + n4iwb)`. -/
theorem load_then_build (box : Cfg.Box) (d : Dict) (b u : ℂ) (hb : d.beta = .num b) (hu : d.u = .num u)
    (h : H5) (n4iwf n4iwb : Nat) (SD SM : Nat → Nat → Nat → ℂ) (hd : h.g2 "dens" = Sym.writeG2 n4iwf n4iwb SD)
    (hm : h.g2 "magn" = Sym.writeG2 n4iwf n4iwb SM)
    (hD : d.dens = some (.a3 (Sym.readG2Full (h.g2 "dens")))) (hM : d.magn = some (.a3 (Sym.readG2Full (h.g2 "magn"))))
    (hc : box.nivCore = -1) (hw : box.niwCore = -1) (h0 : 0 < n4iwf) :
    ∃ box', buildG2 box false d = some (box',
        ⟨"dens", tab n4iwb n4iwf fun w v v' => SD (v + n4iwf).toNat (v' + n4iwf).toNat (w + n4iwb).toNat, b, u, none⟩,
        ⟨"magn", tab n4iwb n4iwf fun w v v' => SM (v + n4iwf).toNat (v' + n4iwf).toNat (w + n4iwb).toNat, b, u, none⟩) ∧
      box'.nivCore = n4iwf ∧ box'.niwCore = n4iwb := by
  have htab : ∀ S : Nat → Nat → Nat → ℂ, Sym.readG2Full (Sym.writeG2 n4iwf n4iwb S) =
      tab n4iwb n4iwf fun w v v' => S (v + n4iwf).toNat (v' + n4iwf).toNat (w + n4iwb).toNat := by
    intro S
    rw [Sym.readG2Full_writeG2]
    unfold tab
    refine List.map_congr_left fun w _ => List.map_congr_left fun v _ => List.map_congr_left fun v' _ => ?_
    congr 1 <;> omega
  obtain ⟨box', h1, h2, h3, -⟩ := buildG2_value box false d b u hb hu n4iwb n4iwf n4iwb n4iwf _ _ (by rw [hD, hd, htab]) (by rw [hM, hm, htab])
    n4iwf n4iwb (Or.inr ⟨hc, rfl⟩) (Or.inr ⟨hw, rfl⟩) h0 le_rfl le_rfl le_rfl le_rfl
  exact ⟨box', h1, h2, h3⟩

/-- **C103 (finding).** A symmetrised file that ends early (the first `2 k + 1` bosonic datasets only, `k < n4iwb`) is not refused:
    the object labels with the Matsubara index `w` the data of the index `w - (n4iwb - k)`. -/
theorem truncated_file_shifted (box : Cfg.Box) (d : Dict) (b u : ℂ) (hb : d.beta = .num b) (hu : d.u = .num u)
    (f : Sym.G2File ℂ) (n4iwf n4iwb k : Nat) (V : Int → Int → Int → ℂ) (hk : k < n4iwb)
    (hf : ∀ i < 2 * k + 1, f.getT (i : Nat) = some ((List.range (2 * n4iwf)).map fun v : Nat => (List.range (2 * n4iwf)).map fun v' : Nat =>
      V ((i : Int) - n4iwb) ((v : Int) - n4iwf) ((v' : Int) - n4iwf)))
    (hend : f.getT ((2 * k + 1 : Nat) : Int) = none)
    (hD : d.dens = some (.a3 (Sym.readG2Full f))) (hM : d.magn = some (.a3 (Sym.readG2Full f)))
    (hc : box.nivCore = -1) (hw : box.niwCore = -1) (h0 : 0 < n4iwf) :
    ∃ box' gd gm, buildG2 box false d = some (box', gd, gm) ∧ box'.niwCore = k ∧
      gd.mat = tab k n4iwf fun w v v' => V (w - ((n4iwb - k : Nat) : Int)) v v' := by
  have htab : Sym.readG2Full f = tab k n4iwf fun w v v' => V (w - ((n4iwb - k : Nat) : Int)) v v' := by
    rw [Sym.readG2Full_prefix f (2 * k + 1) _ hf hend]
    unfold tab
    refine List.map_congr_left fun w _ => List.map_congr_left fun v _ => List.map_congr_left fun v' _ => ?_
    congr 1; omega
  obtain ⟨box', h1, h2, h3, -⟩ := buildG2_value box false d b u hb hu k n4iwf k n4iwf _ _ (by rw [hD, htab]) (by rw [hM, htab])
    n4iwf k (Or.inr ⟨hc, rfl⟩) (Or.inr ⟨hw, rfl⟩) h0 le_rfl le_rfl le_rfl le_rfl
  exact ⟨box', _, _, h1, h3, rfl⟩

/-- **C103.** ED input: the dictionary holds the datasets unchanged (self-energy `siw_hat`); without a second file it has no
    two-particle entries, and building the vertex objects from it fails. -/
theorem loadEd_value (fs : Fs) (path f1 : String) (f : H5) (hf : fs.h5 (path ++ f1) = some f) (giw siw n beta u mu : DS)
    (h1 : f.data "giw" = some giw) (h2 : f.data "siw_hat" = some siw) (h3 : f.data "/config/totdens" = some n)
    (h4 : f.data "/config/beta" = some beta) (h5 : f.data "/config/U" = some u) (h6 : f.data "/dmft/mu" = some mu) :
    load1p fs "EDFermion" path f1 none = some ⟨giw, siw, n, beta, u, mu, none, none⟩ ∧
    (∀ (f2 : String) (h : H5) (gd gm : DS), fs.h5 (path ++ f2) = some h → h.data "g4iw_dens" = some gd → h.data "g4iw_magn" = some gm →
      load1p fs "EDFermion" path f1 (some f2) = some ⟨giw, siw, n, beta, u, mu, some gd, some gm⟩) ∧
    ∀ box sym d, load1p fs "EDFermion" path f1 none = some d → buildG2 box sym d = none := by
  have e : load1p fs "EDFermion" path f1 none = some ⟨giw, siw, n, beta, u, mu, none, none⟩ := by
    simp [load1p, loadEd, hf, h1, h2, h3, h4, h5, h6]
  refine ⟨e, ?_, ?_⟩
  · intro f2 h gd gm a1 a2 a3
    simp [load1p, loadEd, hf, h1, h2, h3, h4, h5, h6, a1, a2, a3]
  · intro box sym d hd
    rw [e, Option.some.injEq] at hd
    rw [← hd]
    simp [buildG2, g2FromInput]

/-- **C103.** Restart from the saved dictionary: the type `default` returns exactly what was saved. -/
theorem loadDefault_value (fs : Fs) (path f1 : String) (f2 : Option String) (d : Dict) (h : fs.npy (path ++ f1) = some d) :
    load1p fs "default" path f1 f2 = some d := by
  simp [load1p, h]

/-- **C103.** The average of `load_dmft1p_w2dyn` (half the sum over bands and spins) is the spin average of the first band for a
    single-band file, and the sum of the spin averages of all bands otherwise. -/
theorem halfSum_value (N : Nat) (bands : List ((Nat → ℂ) × (Nat → ℂ))) (hb : bands ≠ []) :
    halfSum (.a3 (bands.map fun p => [(List.range N).map p.1, (List.range N).map p.2])) =
      some ((List.range N).map fun k => (bands.map fun p => (p.1 k + p.2 k) / 2).sum) := by
  obtain ⟨p, ps, rfl⟩ := List.exists_cons_of_ne_nil hb
  simp only [halfSum, List.map_cons, List.head?_cons, Option.bind_some, Option.map_some, List.length_map, List.length_range]
  congr 1
  refine List.map_congr_left fun k hk => ?_
  rw [List.mem_range] at hk
  have key : ∀ l : List ((Nat → ℂ) × (Nat → ℂ)),
      (1 / 2 : ℂ) * ((l.map fun p => [(List.range N).map p.1, (List.range N).map p.2]).map fun b => (b.map fun s => s.getD k 0).sum).sum =
        (l.map fun p => (p.1 k + p.2 k) / 2).sum := by
    intro l
    induction l with
    | nil => simp
    | cons q qs ih =>
      simp only [List.map_cons, List.sum_cons, mul_add, ih]
      congr 1
      simp [List.getD_eq_getElem?_getD, hk]
      ring
  exact key (p :: ps)

/-- **C103.** `get_chi`: sum and difference of the two worm components; in the density channel the disconnected part is taken off
    at the zero frequency only; defined exactly for data of odd length (density) — an even number of frequencies raises. -/
theorem getChi_value (n beta : ℂ) (niw : Nat) (up dn : Int → ℂ) :
    getChi ((List.range (2 * niw + 1)).map fun k : Nat => up (k - niw)) ((List.range (2 * niw + 1)).map fun k : Nat => dn (k - niw)) n beta "dens" =
      some ((List.range (2 * niw + 1)).map fun k : Nat =>
        up (k - niw) + dn (k - niw) - if (k : Int) - niw = 0 then 2 * beta * (n / 2 - 1) ^ 2 else 0) ∧
    getChi ((List.range (2 * niw + 1)).map fun k : Nat => up (k - niw)) ((List.range (2 * niw + 1)).map fun k : Nat => dn (k - niw)) n beta "magn" =
      some ((List.range (2 * niw + 1)).map fun k : Nat => up (k - niw) - dn (k - niw)) ∧
    (∀ a b : List ℂ, a.length % 2 = 0 → getChi a b n beta "dens" = none) := by
  have hwn : ∀ m : Nat, Mf.wn m = (List.range (2 * m + 1)).map fun k : Nat => (k : Int) - m := by
    intro m
    unfold Mf.wn Py.arange
    simp only [Bool.false_eq_true, if_false]
    rw [show ((m : Int) + 0 + 1 - (-(m : Int) + 0)).toNat = 2 * m + 1 by omega]
    exact List.map_congr_left fun k _ => by omega
  refine ⟨?_, ?_, ?_⟩
  · unfold getChi
    rw [if_neg (by simp), if_pos rfl]
    simp only [List.length_map, List.length_range]
    rw [show (2 * niw + 1) / 2 = niw by omega, hwn, if_pos (by simp)]
    congr 1
    apply List.ext_getElem
    · simp
    · intro i h1 h2
      simp only [List.getElem_zipWith, List.getElem_map, List.getElem_range]
      split <;> ring
  · unfold getChi
    rw [if_neg (by simp), if_neg (by decide), if_pos rfl]
    congr 1
    apply List.ext_getElem
    · simp
    · intro i h1 h2
      simp
  · intro a b ha
    unfold getChi
    split
    · rfl
    · next hl =>
      rw [if_pos rfl]
      dsimp only
      rw [if_neg]
      rw [hwn]
      simp only [List.length_map, List.length_range, List.length_zipWith]
      omega

/-! ### Non-vacuity -/

/-- example values -/
def exF (w v v' : Int) : ℂ := ((100 * w + 10 * v + v' : Int) : ℂ)
/-- example dictionary -/
def exDict : Dict := ⟨.a1 [], .a1 [], .num 1, .num 2, .num 3, .num 0, some (.a3 (tab 2 3 exF)), some (.a3 (tab 1 2 exF))⟩

example : ∃ box' gd gm, buildG2 ⟨1, 2, 0, -1⟩ true exDict = some (box', gd, gm) ∧ gd.mat = tab 1 2 (fun w v v' => (1 / 2) * (exF w v v' + exF w v' v)) ∧
    box'.nivAsympt = 4 := by
  obtain ⟨b, h1, -, -, -, h2⟩ := buildG2_value ⟨1, 2, 0, -1⟩ true exDict 2 3 rfl rfl 2 3 1 2 exF exF rfl rfl 2 1 (Or.inl rfl) (Or.inl rfl)
    (by omega) (by omega) (by omega) (by omega) (by omega)
  exact ⟨b, _, _, h1, rfl, by rw [h2]; rfl⟩

example : buildG2 ⟨1, 4, 0, -1⟩ true exDict = none :=
  buildG2_refuses _ _ _ 2 3 exF (by omega) rfl (Or.inl (by decide))

/-- example file for `loadW2dyn_value`: a nominal filling of zero -/
def exH5 : H5 where
  data := fun s => if s = "dmft-last/ineq-001/giw/value" ∨ s = "dmft-last/ineq-001/siw/value" then some (.a3 [[[1, 2], [3, 6]]])
    else if s = "dmft-last/ineq-001/occ/value" then some (.a4 [[[[2, 7]], [[7, 3]]]]) else if s = "dmft-last/mu/value" then some (.num 5) else none
  attr := fun s => if s = "general.totdens" then some 0 else some 4
  g2 := fun _ => []

example : load1p ⟨fun _ => some exH5, fun _ => none⟩ "w2dyn" "a" "b" (some "c") =
    some ⟨.a1 [2, 4], .a1 [2, 4], .num 5, .num 4, .num 4, .num 5, some (.a3 []), some (.a3 [])⟩ := by
  have h := loadW2dyn_value ⟨fun _ => some exH5, fun _ => none⟩ "a" "b" "c" exH5 exH5 rfl rfl 2 (fun k => k + 1) (fun k => 3 * k + 3)
    (fun k => k + 1) (fun k => 3 * k + 3) [] [] (by simp [exH5, List.range_succ]; norm_num) (by simp [exH5, List.range_succ]; norm_num)
    0 4 4 (.num 5) (by simp [exH5]) (by simp [exH5]) (by simp [exH5]) (by simp [exH5]) 2 7 7 3 [] [] [] (by simp [exH5])
  rw [h]
  simp [List.range_succ, exH5, Sym.readG2Full, Sym.readFullLoop, Sym.G2File.getT, Sym.G2File.get]
  norm_num

/-- C102: the vertex object of a channel holds exactly the entry of that channel with the temperature and interaction of the dictionary; a channel
    without entry in the dictionary (every name other than dens and magn) raises. -/
theorem g2FromInput_value (d : Dict) (ch : String) (b u : ℂ) (m : List (List (List ℂ))) (hb : d.beta = .num b) (hu : d.u = .num u) :
    (ch = "dens" → d.dens = some (.a3 m) → g2FromInput d ch = some ⟨"dens", m, b, u, none⟩) ∧
    (ch = "magn" → d.magn = some (.a3 m) → g2FromInput d ch = some ⟨"magn", m, b, u, none⟩) ∧
    (ch ≠ "dens" → ch ≠ "magn" → g2FromInput d ch = none) := by
  refine ⟨?_, ?_, ?_⟩
  · rintro rfl h
    simp [g2FromInput, h, hb, hu, Fp.newNPoint, Fp.knownChannels]
  · rintro rfl h
    simp [g2FromInput, h, hb, hu, Fp.newNPoint, Fp.knownChannels]
  · intro h1 h2
    simp [g2FromInput, h1, h2]

end DGA.Inp
