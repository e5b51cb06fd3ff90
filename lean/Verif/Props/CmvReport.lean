import Verif.Spec.CmvReport
import Verif.Props.CmvGeom
import Verif.Model.CmvData
import Mathlib.Algebra.QuadraticDiscriminant

/-! # What `compute_cmv` reports: speed, direction, overall flag, distances (C160-C163) -/

namespace SST.Props.Cmv
open SST SST.Cmv SST.Spec SST.Spatial

variable {ι : Type} [DecidableEq ι]

theorem quantile_spec {l : List ℝ} (hne : l ≠ []) {q : ℝ} (h0 : 0 ≤ q) (h1 : q ≤ 1) : ∃ v, quantileLin l q = some v ∧ IsPercentile q l v := by
  unfold quantileLin
  rw [if_neg hne]
  refine ⟨_, rfl, sortR l, sortR_perm l, sortR_sorted l, ?_⟩
  have hn : 0 < l.length := List.length_pos_iff.2 hne
  have hn1 : (1 : ℝ) ≤ l.length := by exact_mod_cast hn
  have hp : 0 ≤ ((l.length : ℝ) - 1) * q := mul_nonneg (by linarith) h0
  have hle : ((l.length : ℝ) - 1) * q ≤ (l.length - 1 : ℕ) := by
    rw [Nat.cast_sub hn]
    push_cast
    nlinarith
  have hf1 := Nat.floor_le hp
  have hf2 := Nat.lt_floor_add_one (((l.length : ℝ) - 1) * q)
  have hi : ⌊((l.length : ℝ) - 1) * q⌋₊ ≤ l.length - 1 := by
    have := Nat.floor_mono hle
    rwa [Nat.floor_natCast] at this
  have hlen := sortR_length l
  unfold lerpAt
  simp only
  generalize hfl : ⌊((l.length : ℝ) - 1) * q⌋₊ = i at *
  have hil : i < (sortR l).length := by omega
  refine ⟨i, ((l.length : ℝ) - 1) * q - i, ((sortR l)[i]?).getD 0, ((sortR l)[min (i + 1) ((sortR l).length - 1)]?).getD 0, by ring, by linarith, by linarith, ?_, ?_, rfl⟩
  · rw [List.getElem?_eq_getElem hil]; rfl
  · by_cases hlast : i + 1 < (sortR l).length
    · left
      rw [min_eq_left (by omega), List.getElem?_eq_getElem hlast]; rfl
    · right
      have : i = l.length - 1 := by omega
      refine ⟨?_, ?_⟩
      · have : ((l.length - 1 : ℕ) : ℝ) = i := by rw [this]
        linarith
      · rw [min_eq_right (by omega)]
        congr 2
        omega

theorem median_spec {l : List ℝ} (hne : l ≠ []) : ∃ v, median l = some v ∧ IsPercentile (1 / 2) l v := by
  have hn : 0 < l.length := List.length_pos_iff.2 hne
  have hlen := sortR_length l
  unfold median
  rw [if_neg hne]
  simp only
  split_ifs with h
  · refine ⟨_, rfl, sortR l, sortR_perm l, sortR_sorted l, l.length / 2, 0, ((sortR l)[l.length / 2]?).getD 0, ((sortR l)[l.length / 2]?).getD 0, ?_, le_refl _,
      one_pos, ?_, .inr ⟨rfl, rfl⟩, by simp⟩
    · have : l.length = 2 * (l.length / 2) + 1 := by omega
      have hc : (l.length : ℝ) = 2 * ((l.length / 2 : ℕ) : ℝ) + 1 := by exact_mod_cast this
      rw [hc]; ring
    · rw [List.getElem?_eq_getElem (by omega)]; rfl
  · refine ⟨_, rfl, sortR l, sortR_perm l, sortR_sorted l, l.length / 2 - 1, 1 / 2, ((sortR l)[l.length / 2 - 1]?).getD 0, ((sortR l)[l.length / 2]?).getD 0, ?_,
      by norm_num, by norm_num, ?_, .inl ?_, by ring⟩
    · have : l.length = 2 * (l.length / 2 - 1) + 2 := by omega
      have hc : (l.length : ℝ) = 2 * ((l.length / 2 - 1 : ℕ) : ℝ) + 2 := by exact_mod_cast this
      rw [hc]; ring
    · rw [List.getElem?_eq_getElem (by omega)]; rfl
    · rw [show l.length / 2 - 1 + 1 = l.length / 2 by omega, List.getElem?_eq_getElem (by omega)]; rfl

theorem percentile_mono {q q' : ℝ} (hq : q ≤ q') {l : List ℝ} {v v' : ℝ} (h : IsPercentile q l v) (h' : IsPercentile q' l v') : v ≤ v' := by
  obtain ⟨s, p, st, i, t, a, b, e, t0, t1, ha, hb, rfl⟩ := h
  obtain ⟨s', p', st', i', t', a', b', e', t0', t1', ha', hb', rfl⟩ := h'
  have : s' = s := sorted_perm_eq st' st (p'.trans p.symm)
  subst this
  have hmono : ∀ {j k : ℕ} {x y : ℝ}, s'[j]? = some x → s'[k]? = some y → j ≤ k → x ≤ y := by
    intro j k x y hx hy hjk
    obtain ⟨hj, rfl⟩ := List.getElem?_eq_some_iff.1 hx
    obtain ⟨hk, rfl⟩ := List.getElem?_eq_some_iff.1 hy
    rcases hjk.eq_or_lt with rfl | hlt
    · exact le_refl _
    · exact List.pairwise_iff_getElem.1 st j k hj hk hlt
  have hab : a ≤ b := by
    rcases hb with hb | ⟨-, rfl⟩
    · exact hmono ha hb (by omega)
    · exact le_refl _
  have hab' : a' ≤ b' := by
    rcases hb' with hb' | ⟨-, rfl⟩
    · exact hmono ha' hb' (by omega)
    · exact le_refl _
  have hl : 1 ≤ (l.length : ℝ) := by
    obtain ⟨hj, -⟩ := List.getElem?_eq_some_iff.1 ha
    have := p.length_eq
    exact_mod_cast (by omega : 1 ≤ l.length)
  have hpos : (i : ℝ) + t ≤ i' + t' := by rw [← e, ← e']; exact mul_le_mul_of_nonneg_left hq (by linarith)
  rcases lt_trichotomy i i' with hlt | rfl | hgt
  · have hv : a + t * (b - a) ≤ b := by nlinarith
    have hv' : a' ≤ a' + t' * (b' - a') := by nlinarith
    rcases hb with hb | ⟨rfl, rfl⟩
    · exact hv.trans ((hmono hb ha' (by omega)).trans hv')
    · have := hmono ha ha' hlt.le
      linarith
  · have ea : a = a' := by rw [ha] at ha'; exact Option.some.inj ha'
    subst ea
    rcases hb with hb | ⟨rfl, rfl⟩
    · rcases hb' with hb' | ⟨rfl, rfl⟩
      · have eb : b = b' := by rw [hb] at hb'; exact Option.some.inj hb'
        subst eb
        nlinarith
      · have : t = 0 := by linarith
        subst this
        simp
    · nlinarith
  · exfalso
    have : (i' : ℝ) + 1 ≤ i := by exact_mod_cast hgt
    linarith

theorem trendErr_iff {a b v : ℝ} (h : b ≤ a) : trendErr (some a) (some b) (some v) ↔ 0.4 * |v| < a - b := by
  unfold trendErr
  simp only [XR.divO]
  by_cases hv : v = 0
  · subst hv
    by_cases hab : a = b
    · subst hab
      simp [XR.div, XR.abs, XR.lt]
    · have : 0 < a - b := by
        have := lt_of_le_of_ne h (Ne.symm hab)
        linarith
      simp [XR.div, XR.abs, XR.lt, this, this.ne']
  · have hp := abs_pos.2 hv
    simp only [XR.div, hv, if_false, XR.abs, XR.lt]
    rw [abs_div, lt_div_iff₀ hp, abs_of_nonneg (sub_nonneg.2 h)]

/-- The rows flagged GOOD have a delay other than 0 (jamaly). -/
theorem jamaly_good (x : Ext) (o : Dict) (stats : List (PairStat ι)) :
    ∀ r ∈ (finish x "jamaly" o stats).rows, r.2 = .good → ∃ d, r.1.delay = some d ∧ d ≠ 0 := by
  intro r hr hg
  rw [finish_rows, if_neg (by decide)] at hr
  obtain ⟨p, -, rfl⟩ := List.mem_map.1 hr
  simp only at hg
  obtain ⟨-, -, -, -, -, -, -, -, h⟩ := (C26_good_iff _ o p).1 hg
  obtain ⟨-, -, -, d, h1, h2, -⟩ := h rfl
  exact ⟨d, h1, h2⟩

theorem goodMoves_length {rows : List (PairStat ι × Flag)} (h : ∀ r ∈ rows, r.2 = .good → r.1.delay ≠ none) :
    (goodMoves rows).length = countFlag .good rows := by
  have := congrArg List.length (goodPairs_moves h)
  unfold asGood at this
  rw [List.length_map] at this
  rw [← this]
  unfold goodPairs countFlag
  rw [List.length_map, List.countP_eq_length_filter]

theorem unit_pol (t : ℝ) : unit (pol2rect 1 t) = some (Real.cos t, Real.sin t) := by
  have : magnitude (pol2rect 1 t) = 1 := by
    unfold magnitude pol2rect
    simp
  unfold unit
  rw [this]
  simp [pol2rect]

theorem speeds_shift (rows : List (PairStat ι × Flag)) (θ : ℝ) (n : ℤ) :
    goodSpeeds rows (θ + n * Real.pi) = (goodSpeeds rows θ).map fun v => (-1) ^ n * v := by
  unfold goodSpeeds apparentSpeed
  rw [List.map_map]
  refine List.map_congr_left fun p _ => ?_
  simp only [Function.comp, Real.cos_add_int_mul_pi, Real.sin_add_int_mul_pi]
  ring

theorem normalise_shift (v θ : ℝ) : ∃ n : ℤ, normalise (some v) (some θ) = (some |v|, some (θ + n * Real.pi)) ∧ |v| = (-1) ^ n * v := by
  unfold normalise
  simp only
  split_ifs with h
  · refine ⟨2 * (-⌊(θ + Real.pi) / (2 * Real.pi)⌋) + 1, ?_, ?_⟩
    · rw [abs_of_neg h]
      simp only [Option.map_some, pyMod, Prod.mk.injEq, Option.some.injEq]
      refine ⟨by ring, ?_⟩
      push_cast
      ring
    · rw [abs_of_neg h, zpow_add₀ (by norm_num), zpow_mul]
      norm_num
  · refine ⟨2 * (-⌊θ / (2 * Real.pi)⌋), ?_, ?_⟩
    · rw [abs_of_nonneg (not_lt.1 h)]
      simp only [Option.map_some, pyMod, Prod.mk.injEq, Option.some.injEq, true_and]
      push_cast
      ring
    · rw [abs_of_nonneg (not_lt.1 h), zpow_mul]
      norm_num

/-- C160: with jamaly and at least two GOOD pairs, the speed returned is the median of the apparent speeds of the GOOD pairs in the direction
returned; the flag is TREND if their 40 and 60 percentiles are more than 0.4 times the speed apart, and GOOD otherwise; no small change of the
direction makes the apparent speeds scatter less; the distances are the components of the vectors of all pairs in this direction. -/
theorem C160_jamaly_report (x : Ext) (hmin : LocalMinimizer x.minimizeScalar) (ts : List (ι × List (Option ℝ))) (pos : List (ι × Vec)) (ref : RefArg ι)
    (method backend : String) (hm : method.toLower = "jamaly") (options : Option Dict) (out : Out ι)
    (hout : (computeCmv x ts pos ref method backend options).1 = .ok out) (h2 : 2 ≤ countFlag .good out.rows) :
    ∃ s θ v40 v60, out.speed = some s ∧ out.angle = some θ ∧
      IsPercentile 0.5 (goodSpeeds out.rows θ) s ∧ IsPercentile 0.4 (goodSpeeds out.rows θ) v40 ∧ IsPercentile 0.6 (goodSpeeds out.rows θ) v60 ∧
      out.flag = (if 0.4 * s < v60 - v40 then .trend else .good) ∧
      IsLocalMin (fun t => variance (goodSpeeds out.rows t)) θ ∧
      out.dists = some (out.rows.map fun r => some (r.1.vec.1 * Real.cos θ + r.1.vec.2 * Real.sin θ)) := by
  obtain ⟨stats, o, -, -, hfin, -⟩ := computeCmv_ok hout
  rw [hm] at hfin
  have hg := jamaly_good x o stats
  rw [← hfin] at hg
  have hg' : ∀ r ∈ out.rows, r.2 = .good → r.1.delay ≠ none := fun r hr h => by
    obtain ⟨d, hd, -⟩ := hg r hr h
    rw [hd]; simp
  have hgp := goodPairs_moves hg'
  have hlen := goodMoves_length hg'
  have hz : ∀ p ∈ goodMoves out.rows, p.1 ≠ 0 := by
    intro p hp
    obtain ⟨r, hr, e⟩ := List.mem_filterMap.1 hp
    split_ifs at e with hgr
    obtain ⟨d, hd, hd0⟩ := hg r hr hgr
    rw [hd] at e
    cases e
    exact hd0
  have hne : goodMoves out.rows ≠ [] := by
    intro h
    rw [h] at hlen
    simp at hlen
    omega
  have hrows := finish_rows x "jamaly" o stats
  rw [← hfin, if_neg (by decide)] at hrows
  simp only at hrows
  obtain ⟨j1, j2, j3⟩ := jamaly_eq x (goodMoves out.rows) hne hz _ rfl
  obtain ⟨θ₀, hθ₀⟩ : ∃ t, t = x.minimizeScalar (fun t => some (variance ((goodMoves out.rows).map fun p => apparentSpeed p t))) := ⟨_, rfl⟩
  rw [← hθ₀] at j1 j2 j3
  have hlm : IsLocalMin (fun t => variance (goodSpeeds out.rows t)) θ₀ := by
    rw [hθ₀]
    refine hmin (fun t => variance (goodSpeeds out.rows t)) ?_
    obtain ⟨P, Q, S, h⟩ := variance_speed (goodMoves out.rows)
    unfold goodSpeeds
    simp only [h]
    exact trig_hasMin P Q S
  have hne' : goodSpeeds out.rows θ₀ ≠ [] := by simpa [goodSpeeds] using hne
  obtain ⟨v, hv, hvp⟩ := median_spec hne'
  obtain ⟨a, ha, hap⟩ := quantile_spec hne' (q := 0.4) (by norm_num) (by norm_num)
  obtain ⟨b, hb, hbp⟩ := quantile_spec hne' (q := 0.6) (by norm_num) (by norm_num)
  have hab : a ≤ b := percentile_mono (by norm_num) hap hbp
  have hjm : (jamaly x (goodPairs out.rows)).1 = some v := by rw [hgp, j1]; exact hv
  have hjt : (jamaly x (goodPairs out.rows)).2.1 = some θ₀ := by rw [hgp, j2]
  have hjf : (jamaly x (goodPairs out.rows)).2.2 = true ↔ 0.4 * |v| < b - a := by
    rw [hgp, j3]
    have e : ((goodMoves out.rows).map fun p => apparentSpeed p θ₀) = goodSpeeds out.rows θ₀ := rfl
    rw [e, hv, ha, hb]
    exact trendErr_iff hab
  have hbig : ¬ (goodPairs out.rows).length ≤ 1 := by
    rw [hgp, asGood, List.length_map, hlen]
    omega
  obtain ⟨n, hθ, hvn⟩ := normalise_shift v θ₀
  obtain ⟨θ, hθn⟩ : ∃ θ, θ = θ₀ + n * Real.pi := ⟨_, rfl⟩
  rw [← hθn] at hθ
  have hres : out = ⟨some |v|, some θ, if 0.4 * |v| < b - a then .trend else .good, out.rows,
      some (out.rows.map fun r => some (r.1.vec.1 * Real.cos θ + r.1.vec.2 * Real.sin θ))⟩ := by
    have : finish x "jamaly" o stats = ⟨some |v|, some θ, if 0.4 * |v| < b - a then .trend else .good, out.rows,
      some (out.rows.map fun r => some (r.1.vec.1 * Real.cos θ + r.1.vec.2 * Real.sin θ))⟩ := by
      unfold finish
      simp only [if_neg (show ¬ ("jamaly" = "gagne") by decide), ← hrows]
      rw [if_neg hbig]
      simp only [if_true, hjm, hjt, hθ, true_and, hjf, Option.bind_some, unit_pol, Option.map_some]
    rw [← hfin] at this
    exact this
  have r1 := congrArg Out.speed hres
  have r2 := congrArg Out.angle hres
  have r3 := congrArg Out.flag hres
  have r4 := congrArg Out.dists hres
  simp only at r1 r2 r3 r4
  have hsp : goodSpeeds out.rows θ = (goodSpeeds out.rows θ₀).map fun v => (-1) ^ n * v := by rw [hθn, speeds_shift]
  have hloc : IsLocalMin (fun t => variance (goodSpeeds out.rows t)) θ := by
    have hper : (fun t => variance (goodSpeeds out.rows t)) = (fun t => variance (goodSpeeds out.rows t)) ∘ fun t => t + ((-n : ℤ) : ℝ) * Real.pi := by
      funext t
      simp only [Function.comp]
      rw [speeds_shift]
      have hne2 : goodSpeeds out.rows t ≠ [] := by simpa [goodSpeeds] using hne
      have := variance_affine 0 ((-1) ^ (-n)) (goodSpeeds out.rows t) hne2
      simp only [zero_add] at this
      rw [this]
      have h1 : (((-1 : ℝ)) ^ (-n)) ^ 2 = 1 := by
        rw [← zpow_natCast, ← zpow_mul, mul_comm, zpow_mul]
        norm_num
      rw [h1, one_mul]
    rw [hper]
    refine IsLocalMin.comp_continuous (b := θ) ?_ (by fun_prop)
    have : θ + ((-n : ℤ) : ℝ) * Real.pi = θ₀ := by rw [hθn]; push_cast; ring
    simp only [this]
    exact hlm
  rcases Int.even_or_odd n with hn | hn
  · have h1 : ((-1 : ℝ)) ^ n = 1 := hn.neg_one_zpow
    have hsp : goodSpeeds out.rows θ = goodSpeeds out.rows θ₀ := by rw [hsp, h1]; simp
    rw [h1, one_mul] at hvn
    refine ⟨|v|, θ, a, b, r1, r2, ?_, ?_, ?_, r3, hloc, r4⟩
    · rw [hsp, hvn]; convert hvp using 1; norm_num
    · rw [hsp]; exact hap
    · rw [hsp]; exact hbp
  · have h1 : ((-1 : ℝ)) ^ n = -1 := hn.neg_one_zpow
    rw [h1] at hsp hvn
    have hne2 : goodSpeeds out.rows θ ≠ [] := by simpa [goodSpeeds] using hne
    obtain ⟨v', hv', hvp'⟩ := median_spec hne2
    obtain ⟨a', ha', hap'⟩ := quantile_spec hne2 (q := 0.4) (by norm_num) (by norm_num)
    obtain ⟨b', hb', hbp'⟩ := quantile_spec hne2 (q := 0.6) (by norm_num) (by norm_num)
    rw [hsp] at hv' ha' hb'
    rw [median_mul (by norm_num), hv] at hv'
    rw [quantile_mul_neg (by norm_num) _ _ (by norm_num) (by norm_num), show (1 : ℝ) - 0.4 = 0.6 by norm_num, hb] at ha'
    rw [quantile_mul_neg (by norm_num) _ _ (by norm_num) (by norm_num), show (1 : ℝ) - 0.6 = 0.4 by norm_num, ha] at hb'
    have e1 := Option.some.inj hv'
    have e2 := Option.some.inj ha'
    have e3 := Option.some.inj hb'
    simp only at e1 e2 e3
    refine ⟨|v|, θ, a', b', r1, r2, ?_, hap', hbp', ?_, hloc, r4⟩
    · rw [hvn, e1]; convert hvp' using 1; norm_num
    · rw [r3, ← e2, ← e3]
      congr 2
      ring

/-! ## C161 -/

theorem zip_form_nonneg (l : List (ℝ × ℝ)) (t : ℝ) :
    0 ≤ (l.map fun p => p.1 * p.1).sum * (t * t) + 2 * (l.map fun p => p.1 * p.2).sum * t + (l.map fun p => p.2 * p.2).sum := by
  induction l with
  | nil => simp
  | cons p l ih =>
    simp only [List.map_cons, List.sum_cons]
    nlinarith [sq_nonneg (p.1 * t + p.2)]

theorem zip_cauchy (l : List (ℝ × ℝ)) : (l.map fun p => p.1 * p.2).sum ^ 2 ≤ (l.map fun p => p.1 * p.1).sum * (l.map fun p => p.2 * p.2).sum := by
  have := discrim_le_zero (zip_form_nonneg l)
  unfold discrim at this
  nlinarith

theorem cov_zip (u v : List ℝ) (h : u.length = v.length) :
    covB u u = (((u.zip v).map fun p => (p.1 - mean u, p.2 - mean v)).map fun p => p.1 * p.1).sum / u.length ∧
    covB u v = (((u.zip v).map fun p => (p.1 - mean u, p.2 - mean v)).map fun p => p.1 * p.2).sum / u.length ∧
    covB v v = (((u.zip v).map fun p => (p.1 - mean u, p.2 - mean v)).map fun p => p.2 * p.2).sum / u.length := by
  have aux : ∀ (u v : List ℝ) (a b : ℝ), u.length = v.length →
      (List.zipWith (fun x y => (x - a) * (y - a)) u u).sum = (((u.zip v).map fun p => (p.1 - a, p.2 - b)).map fun p => p.1 * p.1).sum ∧
      (List.zipWith (fun x y => (x - a) * (y - b)) u v).sum = (((u.zip v).map fun p => (p.1 - a, p.2 - b)).map fun p => p.1 * p.2).sum ∧
      (List.zipWith (fun x y => (x - b) * (y - b)) v v).sum = (((u.zip v).map fun p => (p.1 - a, p.2 - b)).map fun p => p.2 * p.2).sum := by
    intro u
    induction u with
    | nil => intro v a b h; cases v <;> simp_all
    | cons x u ih =>
      intro v a b h
      cases v with
      | nil => simp at h
      | cons y v =>
        obtain ⟨h1, h2, h3⟩ := ih v a b (by simpa using h)
        simp only [List.zipWith_cons_cons, List.zip_cons_cons, List.map_cons, List.sum_cons, h1, h2, h3, and_self]
  obtain ⟨h1, h2, h3⟩ := aux u v (mean u) (mean v) h
  unfold covB
  refine ⟨?_, ?_, ?_⟩
  · rw [← h1, mean]; simp
  · rw [← h2, mean]; simp [h]
  · rw [← h3, mean]; simp [h]

theorem cov_cauchy (u v : List ℝ) (h : u.length = v.length) : covB u v ^ 2 ≤ covB u u * covB v v ∧ 0 ≤ covB u u ∧ 0 ≤ covB v v := by
  obtain ⟨h1, h2, h3⟩ := cov_zip u v h
  have hc := zip_cauchy ((u.zip v).map fun p => (p.1 - mean u, p.2 - mean v))
  have hn : (0 : ℝ) ≤ u.length := Nat.cast_nonneg _
  refine ⟨?_, ?_, ?_⟩
  · rw [h1, h2, h3, div_pow, div_mul_div_comm, ← sq]
    exact div_le_div_of_nonneg_right hc (by positivity)
  · rw [h1]
    refine div_nonneg (List.sum_nonneg ?_) hn
    intro x hx
    obtain ⟨p, -, rfl⟩ := List.mem_map.1 hx
    exact mul_self_nonneg _
  · rw [h3]
    refine div_nonneg (List.sum_nonneg ?_) hn
    intro x hx
    obtain ⟨p, -, rfl⟩ := List.mem_map.1 hx
    exact mul_self_nonneg _

theorem linregress_range (u v : List ℝ) (h : u.length = v.length) {r e : ℝ} (hr : linregress u v = .ok (r, e)) : |r| ≤ 1 ∧ 0 ≤ e := by
  obtain ⟨h1, h2, h3⟩ := cov_cauchy u v h
  have hq : |if covB u u = 0 ∨ covB v v = 0 then 0 else covB u v / Real.sqrt (covB u u * covB v v)| ≤ 1 := by
    split_ifs with h4
    · simp
    · rw [not_or] at h4
      have hp : 0 < covB u u * covB v v := mul_pos (lt_of_le_of_ne h2 (Ne.symm h4.1)) (lt_of_le_of_ne h3 (Ne.symm h4.2))
      rw [abs_div, div_le_one (by positivity), abs_of_nonneg (Real.sqrt_nonneg _)]
      exact Real.abs_le_sqrt h1
  unfold linregress at hr
  by_cases h0 : ∀ a ∈ u, ∀ b ∈ u, a = b
  · rw [if_pos h0] at hr; cases hr
  · rw [if_neg h0] at hr
    simp only [Except.ok.injEq, Prod.mk.injEq] at hr
    obtain ⟨rfl, rfl⟩ := hr
    refine ⟨hq, ?_⟩
    split_ifs <;> first | exact le_refl (0 : ℝ) | exact Real.sqrt_nonneg _

/-- C161: with jamaly and at least two GOOD pairs, `method_data` describes the GOOD pairs: `ngood` is their number, `r_corr` lies between
0 and 1, `stderr_corr` is not negative, and the flag is TREND exactly if the absolute value of `error_index` is above 0.4. -/
theorem C161_method_data (x : Ext) (ts : List (ι × List (Option ℝ))) (pos : List (ι × Vec)) (ref : RefArg ι)
    (method backend : String) (hm : method.toLower = "jamaly") (options : Option Dict) (s θ : Option ℝ) (d : WindspeedData ι)
    (hout : computeCmvFull x ts pos ref method backend options = .ok (s, θ, d)) (flags : List Flag) (hfl : d.pairFlag = some flags)
    (h2 : 2 ≤ flags.count .good) :
    ∃ md, d.methodData = some md ∧ md.ngood = flags.count .good ∧ 0 ≤ md.rCorr ∧ md.rCorr ≤ 1 ∧ 0 ≤ md.stderr ∧
      md.velocity.length = md.ngood ∧ (d.flag = some .trend ↔ XR.lt (.fin 0.4) md.errorIndex.abs) := by
  unfold computeCmvFull at hout
  cases hc : (computeCmv x ts pos ref method backend options).1 with
  | error e => rw [hc] at hout; cases hout
  | ok out =>
    rw [hc] at hout
    cases hout
    obtain ⟨stats, o, -, -, hfin, -⟩ := computeCmv_ok hc
    rw [hm] at hfin ⊢
    have hg := jamaly_good x o stats
    rw [← hfin] at hg
    have hflags : flags = out.rows.map Prod.snd := by
      unfold dataOf at hfl
      split_ifs at hfl <;> exact (Option.some.inj hfl).symm
    have hlen : (goodPairs out.rows).length = flags.count .good := by
      rw [hflags]
      unfold goodPairs
      rw [List.length_map, ← List.countP_eq_length_filter, List.count, List.countP_map]
      refine List.countP_congr fun r _ => ?_
      simp
    have hbig : ¬ (goodPairs out.rows).length ≤ 1 := by omega
    have hrows := finish_rows x "jamaly" o stats
    rw [← hfin, if_neg (by decide)] at hrows
    simp only at hrows
    refine ⟨jamalyData x (goodPairs out.rows), ?_, hlen, ?_⟩
    · unfold dataOf
      rw [if_neg hbig, if_pos rfl]
    · have hreg : ∀ u v : List ℝ, u.length = v.length →
          |(match linregress u v with | .ok r => r | .error _ => (0, 0)).1| ≤ 1 ∧ 0 ≤ (match linregress u v with | .ok r => r | .error _ => (0, 0)).2 := by
        intro u v huv
        cases hr : linregress u v with
        | error e => simp
        | ok r => exact linregress_range u v huv hr
      have hvl : (valid ((goodPairs out.rows).map Prod.fst)).length =
          (valid (projectVectors ((goodPairs out.rows).map Prod.snd) (pol2rect 1 (x.minimizeScalar fun t => nanvar (velocities (goodPairs out.rows) t))))).length := by
        have hg' : ∀ r ∈ out.rows, r.2 = .good → r.1.delay ≠ none := fun r hr h => by
          obtain ⟨d, hd, -⟩ := hg r hr h
          rw [hd]; simp
        rw [goodPairs_moves hg']
        unfold projectVectors valid asGood
        rw [unit_pol]
        simp [List.filterMap_map, Function.comp_def]
      refine ⟨abs_nonneg _, (hreg _ _ hvl).1, (hreg _ _ hvl).2, ?_, ?_⟩
      · simp [jamalyData, velocities, projectVectors]
      · have hflag : out.flag = if (jamaly x (goodPairs out.rows)).2.2 = true then Flag.trend else Flag.good := by
          conv_lhs => rw [hfin]
          unfold finish
          simp only [if_neg (show ¬ ("jamaly" = "gagne") by decide), ← hrows]
          rw [if_neg hbig]
          simp
        have hd : (dataOf x "jamaly" out).flag = some out.flag := by
          unfold dataOf
          rw [if_neg hbig]
        rw [hd, hflag]
        have hj : (jamaly x (goodPairs out.rows)).2.2 = true ↔ XR.lt (.fin 0.4) (jamalyData x (goodPairs out.rows)).errorIndex.abs := by
          unfold jamaly jamalyData
          refine (@decide_eq_true_iff _ (_)).trans ?_
          simp only
          generalize nanquantile _ 0.6 = a
          generalize nanquantile _ 0.4 = b
          generalize nanmedian _ = c
          cases a <;> cases b <;> simp [trendErr, XR.divO, XR.abs, XR.lt]
        rw [← hj]
        split_ifs with h <;> simp [h]

/-! ## C162 -/

theorem mean_mul (c : ℝ) (u : List ℝ) : mean (u.map fun a => c * a) = c * mean u := by
  unfold mean
  rw [List.sum_map_mul_left, List.length_map, List.map_id']
  ring

theorem cov_line (c : ℝ) (u : List ℝ) : covB u (u.map fun a => c * a) = c * covB u u ∧ covB (u.map fun a => c * a) (u.map fun a => c * a) = c ^ 2 * covB u u := by
  have aux : ∀ (u : List ℝ) (m : ℝ), (List.zipWith (fun a b => (a - m) * (b - c * m)) u (u.map fun a => c * a)).sum =
      c * (List.zipWith (fun a b => (a - m) * (b - m)) u u).sum ∧
      (List.zipWith (fun a b => (a - c * m) * (b - c * m)) (u.map fun a => c * a) (u.map fun a => c * a)).sum =
      c ^ 2 * (List.zipWith (fun a b => (a - m) * (b - m)) u u).sum := by
    intro u m
    induction u with
    | nil => simp
    | cons a u ih =>
      simp only [List.map_cons, List.zipWith_cons_cons, List.sum_cons, ih.1, ih.2]
      constructor <;> ring
  obtain ⟨h1, h2⟩ := aux u (mean u)
  unfold covB
  rw [mean_mul]
  constructor
  · show (List.zipWith (fun a b => (a - mean u) * (b - c * mean u)) u (u.map fun a => c * a)).sum / _ =
      c * ((List.zipWith (fun a b => (a - mean u) * (b - mean u)) u u).sum / _)
    rw [h1, List.length_zipWith, List.length_zipWith, List.length_map]
    ring
  · show (List.zipWith (fun a b => (a - c * mean u) * (b - c * mean u)) (u.map fun a => c * a) (u.map fun a => c * a)).sum / _ =
      c ^ 2 * ((List.zipWith (fun a b => (a - mean u) * (b - mean u)) u u).sum / _)
    rw [h2, List.length_zipWith, List.length_zipWith, List.length_map]
    ring

theorem cov_zero {u : List ℝ} (h : covB u u = 0) : ∀ a ∈ u, a = mean u := by
  intro a ha
  have hn : (u.length : ℝ) ≠ 0 := by
    have := List.length_pos_of_mem ha
    positivity
  have h1 : (List.zipWith (fun a b => (a - mean u) * (b - mean u)) u u) = u.map fun a => (a - mean u) * (a - mean u) := by
    rw [List.zipWith_self]
  unfold covB at h
  rw [h1, mean, List.length_map, div_eq_zero_iff, or_iff_left hn] at h
  have := sum_zero_mem (l := u.map fun a => (a - mean u) * (a - mean u)) (by
    intro x hx
    obtain ⟨y, -, rfl⟩ := List.mem_map.1 hx
    exact mul_self_nonneg _) h (List.mem_map.2 ⟨a, ha, rfl⟩)
  have := mul_self_eq_zero.1 this
  linarith

theorem linregress_line (c : ℝ) (hc : c ≠ 0) (u : List ℝ) (hne : ¬ ∀ a ∈ u, ∀ b ∈ u, a = b) :
    ∃ r, linregress u (u.map fun a => c * a) = .ok (r, 0) ∧ |r| = 1 := by
  obtain ⟨h1, h2⟩ := cov_line c u
  obtain ⟨-, hnn, -⟩ := cov_cauchy u u rfl
  have hpos : 0 < covB u u := lt_of_le_of_ne hnn fun h => hne fun a ha b hb => (cov_zero h.symm a ha).trans (cov_zero h.symm b hb).symm
  have hr : |c * covB u u / Real.sqrt (covB u u * (c ^ 2 * covB u u))| = 1 := by
    have e : covB u u * (c ^ 2 * covB u u) = (c * covB u u) ^ 2 := by ring
    have hcp : c * covB u u ≠ 0 := mul_ne_zero hc hpos.ne'
    rw [e, Real.sqrt_sq_eq_abs, abs_div, abs_abs, div_self (abs_ne_zero.2 hcp)]
  refine ⟨c * covB u u / Real.sqrt (covB u u * (c ^ 2 * covB u u)), ?_, hr⟩
  unfold linregress
  rw [if_neg hne]
  simp only [h1, h2]
  rw [if_neg (by
    rintro (h | h)
    · exact hpos.ne' h
    · exact (mul_pos (by positivity) hpos).ne' h)]
  have hsq : (c * covB u u / Real.sqrt (covB u u * (c ^ 2 * covB u u))) ^ 2 = 1 := by rw [← sq_abs, hr]; norm_num
  rw [hsq]
  simp

/-- C162 (the part that holds): if the delays of all GOOD pairs are those of one motion, and are not all equal, then `r_corr` is 1 and
`stderr_corr` is 0. -/
theorem C162_noise_free_partial (x : Ext) (hx : LocalMinimizer x.minimizeScalar) (ts : List (ι × List (Option ℝ))) (pos : List (ι × Vec)) (ref : RefArg ι)
    (method backend : String) (hm : method.toLower = "jamaly") (options : Option Dict) (out : Out ι)
    (hout : (computeCmv x ts pos ref method backend options).1 = .ok out) (V : Vec) (hV : V ≠ 0)
    (hw : ∀ r ∈ out.rows, r.2 = .good → PlaneWave V r.1)
    (hs : ∃ r ∈ out.rows, ∃ s ∈ out.rows, r.2 = .good ∧ s.2 = .good ∧ Independent r.1.vec s.1.vec)
    (hd : ∃ r ∈ out.rows, ∃ s ∈ out.rows, r.2 = .good ∧ s.2 = .good ∧ r.1.delay ≠ s.1.delay) :
    ∃ s θ d md, computeCmvFull x ts pos ref method backend options = .ok (s, θ, d) ∧ d.methodData = some md ∧ md.rCorr = 1 ∧ md.stderr = 0 := by
  obtain ⟨stats, o, -, -, hfin, -⟩ := computeCmv_ok hout
  rw [hm] at hfin
  have hg := jamaly_good x o stats
  rw [← hfin] at hg
  have hg' : ∀ r ∈ out.rows, r.2 = .good → r.1.delay ≠ none := fun r hr h => by
    obtain ⟨d, hd, -⟩ := hg r hr h
    rw [hd]; simp
  have hgp := goodPairs_moves hg'
  have hmem : ∀ r ∈ out.rows, r.2 = .good → ∃ p ∈ goodMoves out.rows, some p.1 = r.1.delay ∧ p.2 = r.1.vec := by
    intro r hr h
    obtain ⟨d, hd, -⟩ := hg r hr h
    exact ⟨(d, r.1.vec), List.mem_filterMap.2 ⟨r, hr, by rw [if_pos h, hd]; rfl⟩, hd.symm, rfl⟩
  have hback : ∀ p ∈ goodMoves out.rows, p.1 ≠ 0 ∧ p.1 = (p.2.1 * V.1 + p.2.2 * V.2) / (V.1 ^ 2 + V.2 ^ 2) := by
    intro p hp
    obtain ⟨r, hr, e⟩ := List.mem_filterMap.1 hp
    split_ifs at e with hgr
    obtain ⟨d, hd, hd0⟩ := hg r hr hgr
    have hpw := hw r hr hgr
    unfold PlaneWave at hpw
    rw [hd] at e hpw
    cases e
    exact ⟨hd0, Option.some.inj hpw⟩
  obtain ⟨v, θ, hj, hv, hpol⟩ := jamaly_planeWave x hx (goodMoves out.rows) V hV (fun p hp => (hback p hp).1) (fun p hp => (hback p hp).2) (by
    obtain ⟨r, hr, s, hs, gr, gs, hi⟩ := hs
    obtain ⟨p, hp, -, e⟩ := hmem r hr gr
    obtain ⟨q, hq, -, e'⟩ := hmem s hs gs
    exact ⟨p, hp, q, hq, by rw [e, e']; exact hi⟩)
  have hv0 : v ≠ 0 := by
    intro h0
    rw [h0, abs_zero] at hv
    exact (magnitude_pos hV).ne hv
  have hθ : (x.minimizeScalar fun t => nanvar (velocities (goodPairs out.rows) t)) = θ := by
    have : (jamaly x (goodPairs out.rows)).2.1 = some θ := by rw [hgp]; exact congrArg (fun j => j.2.1) hj
    exact Option.some.inj this
  have hdist : valid (projectVectors ((goodPairs out.rows).map Prod.snd) (pol2rect 1 θ)) = (valid ((goodPairs out.rows).map Prod.fst)).map fun a => v * a := by
    rw [hgp]
    unfold projectVectors valid asGood
    rw [unit_pol]
    simp only [List.map_map, Option.map_some, List.filterMap_map, Function.comp_def, List.map_filterMap, id]
    simp only [List.filterMap_eq_map']
    refine List.map_congr_left fun p hp => ?_
    have h1 : V.1 = v * Real.cos θ := by rw [← hpol]; rfl
    have h2 : V.2 = v * Real.sin θ := by rw [← hpol]; rfl
    have hN : V.1 ^ 2 + V.2 ^ 2 = v ^ 2 := by rw [h1, h2]; linear_combination v ^ 2 * Real.sin_sq_add_cos_sq θ
    rw [(hback p hp).2, hN, h1, h2]
    field_simp
  have hfst : valid ((goodPairs out.rows).map Prod.fst) = (goodMoves out.rows).map Prod.fst := by
    rw [hgp]
    unfold valid asGood
    simp [List.filterMap_map, Function.comp_def]
  have hneq : ¬ ∀ a ∈ valid ((goodPairs out.rows).map Prod.fst), ∀ b ∈ valid ((goodPairs out.rows).map Prod.fst), a = b := by
    rw [hfst]
    intro h
    obtain ⟨r, hr, s, hs, gr, gs, hi⟩ := hd
    obtain ⟨p, hp, e, -⟩ := hmem r hr gr
    obtain ⟨q, hq, e', -⟩ := hmem s hs gs
    exact hi (by rw [← e, ← e', h _ (List.mem_map.2 ⟨p, hp, rfl⟩) _ (List.mem_map.2 ⟨q, hq, rfl⟩)])
  have hbig : ¬ (goodPairs out.rows).length ≤ 1 := by
    intro hle
    rw [hgp, asGood, List.length_map] at hle
    apply hneq
    rw [hfst]
    intro a ha b hb
    obtain ⟨p, hp, rfl⟩ := List.mem_map.1 ha
    obtain ⟨q, hq, rfl⟩ := List.mem_map.1 hb
    match hgm : goodMoves out.rows with
    | [] => rw [hgm] at hp; cases hp
    | [y] =>
      rw [hgm] at hp hq
      rw [List.mem_singleton.1 hp, List.mem_singleton.1 hq]
    | y :: z :: l => rw [hgm] at hle; simp at hle
  obtain ⟨r, hr, hr1⟩ := linregress_line v hv0 _ hneq
  refine ⟨out.speed, out.angle, dataOf x "jamaly" out, jamalyData x (goodPairs out.rows), ?_, ?_, ?_, ?_⟩
  · unfold computeCmvFull
    rw [hout, hm]
    rfl
  · unfold dataOf
    rw [if_neg hbig, if_pos rfl]
  · unfold jamalyData
    simp only [hθ, hdist, hr, hr1]
  · unfold jamalyData
    simp only [hθ, hdist, hr]

/-- C162 fails for equal delays: three sites, a motion in the direction of the diagonal, no noise at all, and `r_corr` is 0. -/
theorem C162_violated_equal_delays (l : List (Option ℝ × Vec) → Vec) (m : (ℝ → Option ℝ) → ℝ) :
    ∃ s θ d md, computeCmvFull (exExt l m) exTs exPos (.one 0) "jamaly" "xcorr" none = .ok (s, θ, d) ∧ d.methodData = some md ∧ md.rCorr = 0 ∧
      ∃ out, (computeCmv (exExt l m) exTs exPos (.one 0) "jamaly" "xcorr" none).1 = .ok out ∧
        (∀ r ∈ out.rows, r.2 = .good → PlaneWave (1, 1) r.1) ∧
        ∃ r ∈ out.rows, ∃ s ∈ out.rows, r.2 = .good ∧ s.2 = .good ∧ Independent r.1.vec s.1.vec := by
  obtain ⟨out, h1, h2, r, hr, s, hs, gr, gs, hi⟩ := ex_wave l m
  have e1 : "jamaly".toLower = "jamaly" := by decide +kernel
  obtain ⟨stats, o, hprep, -, hfin, -⟩ := computeCmv_ok h1
  rw [ex_prepare l m _ (Or.inl e1)] at hprep
  cases hprep
  rw [e1] at hfin
  have hdel : ∀ r ∈ out.rows, r.1.delay = some (1 / 2) := by
    intro r hr
    rw [hfin, finish_rows, if_neg (by decide)] at hr
    simp only [List.map_cons, List.map_nil, List.mem_cons, List.not_mem_nil, or_false] at hr
    rcases hr with rfl | rfl | rfl <;> rfl
  have heq : ∀ a ∈ valid ((goodPairs out.rows).map Prod.fst), ∀ b ∈ valid ((goodPairs out.rows).map Prod.fst), a = b := by
    have : ∀ a ∈ valid ((goodPairs out.rows).map Prod.fst), a = 1 / 2 := by
      intro a ha
      unfold valid goodPairs at ha
      simp only [List.mem_filterMap, List.mem_map, List.mem_filter, id] at ha
      obtain ⟨q, ⟨p, ⟨r, ⟨hr, -⟩, rfl⟩, rfl⟩, e⟩ := ha
      simp only [hdel r hr] at e
      exact (Option.some.inj e).symm
    intro a ha b hb
    rw [this a ha, this b hb]
  have hbig : ¬ (goodPairs out.rows).length ≤ 1 := by
    have hc : ∀ {α : Type} {l : List α} {a b : α}, a ∈ l → b ∈ l → a ≠ b → ¬ l.length ≤ 1 := by
      intro α l a b ha hb hab hle
      match l with
      | [] => cases ha
      | [y] => exact hab (by rw [List.mem_singleton.1 ha, List.mem_singleton.1 hb])
      | y :: z :: l => simp at hle
    refine hc (a := (r.1.delay, r.1.vec)) (b := (s.1.delay, s.1.vec)) ?_ ?_ ?_
    · exact List.mem_map.2 ⟨r, List.mem_filter.2 ⟨hr, by simpa using gr⟩, rfl⟩
    · exact List.mem_map.2 ⟨s, List.mem_filter.2 ⟨hs, by simpa using gs⟩, rfl⟩
    · intro h
      have := (Prod.mk.inj h).2
      rw [this] at hi
      apply hi
      ring
  refine ⟨out.speed, out.angle, dataOf (exExt l m) "jamaly" out, jamalyData (exExt l m) (goodPairs out.rows), ?_, ?_, ?_, out, h1, h2, r, hr, s, hs, gr, gs, hi⟩
  · unfold computeCmvFull
    rw [h1, e1]
    rfl
  · unfold dataOf
    rw [if_neg hbig, if_pos rfl]
  · unfold jamalyData linregress
    simp only [if_pos heq, abs_zero]

/-! Example: three sites, reference site 0, a motion with velocity (1, 2), delays 1/5 and 2/5. -/

open Classical in
noncomputable def exExt2 (m : (ℝ → Option ℝ) → ℝ) : Ext :=
  ⟨fun _ _ b => (some (if b = [some 1, some 0] then 2 / 5 else 1 / 5), some 1, some 0), m, fun _ => (0, 0)⟩

noncomputable def exTs2 : List (ℕ × List (Option ℝ)) := [(0, [some 0, some 1]), (1, [some 0, some 1]), (2, [some 1, some 0])]

theorem ex2_good (o : Dict) (hov : ∀ k v, (k, v) ∈ documented "jamaly" → opt o k = v) (s : PairStat ℕ) (hab : s.a ≠ s.b)
    (h1 : s.sigA = [some 0, some 1] ∨ s.sigA = [some 1, some 0]) (h2 : s.sigB = [some 0, some 1] ∨ s.sigB = [some 1, some 0])
    (hv : magnitude s.vec = 1) (d : ℝ) (hd : s.delay = some d) (hd1 : 1 / 10 < d) (hp : s.peak = some 1) (hme : s.meanCorr = some 0) :
    pairFlag "jamaly" o s = .good := by
  have hmax : ∀ q : List (Option ℝ), q = [some 0, some 1] ∨ q = [some 1, some 0] → ∀ m, IsMaxOf m q → m = 1 := by
    rintro q hq m ⟨e1, e2⟩
    have e3 := e2 1 (by rcases hq with rfl | rfl <;> simp)
    rcases hq with rfl | rfl <;> simp at e1 <;> rcases e1 with rfl | rfl <;> first | rfl | (norm_num at e3)
  have havg : ∀ q : List (Option ℝ), q = [some 0, some 1] ∨ q = [some 1, some 0] → avgOf q = 1 / 2 := by
    rintro q (rfl | rfl) <;> norm_num [avgOf, List.filterMap_cons]
  have hstd : ∀ q : List (Option ℝ), q = [some 0, some 1] ∨ q = [some 1, some 0] → ¬ StdBelow q 0.001 := by
    rintro q hq ⟨_, h⟩
    rw [havg q hq, Real.sqrt_lt' (by norm_num)] at h
    rcases hq with rfl | rfl <;> simp only [List.filterMap_cons, List.filterMap_nil, id, List.map_cons, List.map_nil, List.sum_cons, List.sum_nil,
      List.length_cons, List.length_nil] at h <;> norm_num at h
  have hmb : ∀ q : List (Option ℝ), q = [some 0, some 1] ∨ q = [some 1, some 0] → ¬ MaxBelow q 0.4 := by
    rintro q hq ⟨m, e1, e2⟩
    rw [hmax q hq m e1] at e2
    norm_num at e2
  have hlv : ∀ q : List (Option ℝ), q = [some 0, some 1] ∨ q = [some 1, some 0] → ¬ LowVariation q 0.05 := by
    rintro q hq ⟨m, e1, _, e2⟩
    rw [hmax q hq m e1, havg q hq] at e2
    norm_num at e2
  have hd0 : 0 < d := by linarith
  rw [C26_good_iff]
  refine ⟨hab, hstd _ h1, hstd _ h2, by rw [hd]; simp [hd0.ne'], by rw [hp]; simp, by rw [hme]; simp, ?_, ?_, fun _ => ⟨?_, ?_, ?_, d, hd, hd0.ne', ?_, ?_⟩⟩
  · rw [hov "ktlim" 0.4 (by simp [documented])]; exact hmb _ h1
  · rw [hov "ktlim" 0.4 (by simp [documented])]; exact hmb _ h2
  · rw [hov "var_s_lim" 0.05 (by simp [documented])]; exact hlv _ h1
  · rw [hov "var_s_lim" 0.05 (by simp [documented])]; exact hlv _ h2
  · rw [hov "mincorr" 0.8 (by simp [documented]), hp, hme]
    rintro ⟨k, e1, e2⟩
    cases e1
    rcases e2 with e2 | ⟨m, e3, e4⟩
    · norm_num at e2
    · cases e3
      norm_num at e4
  · rw [hov "minvelocity" 0 (by simp [documented]), hv, abs_of_pos (by positivity)]
    positivity
  · rw [hov "maxvelocity" 70 (by simp [documented]), hv, abs_of_pos (by positivity), div_lt_iff₀ hd0]
    linarith

/-- The hypotheses of C160 to C163 hold in a concrete case. -/
theorem ex2_wave (m : (ℝ → Option ℝ) → ℝ) :
    ∃ out, (computeCmv (exExt2 m) exTs2 exPos (.one 0) "jamaly" "xcorr" none).1 = .ok out ∧
      (∀ r ∈ out.rows, r.2 = .good → PlaneWave (1, 2) r.1) ∧ 2 ≤ countFlag .good out.rows ∧
      ∃ r ∈ out.rows, ∃ s ∈ out.rows, r.2 = .good ∧ s.2 = .good ∧ Independent r.1.vec s.1.vec ∧ r.1.delay ≠ s.1.delay := by
  have e1 : "jamaly".toLower = "jamaly" := by decide +kernel
  have e2 : "xcorr".toLower = "xcorr" := by decide +kernel
  obtain ⟨o, ho, -, hval⟩ := (C28_validation "jamaly" (Or.inl rfl) none).1 (by simp)
  have hov : ∀ k v, (k, v) ∈ documented "jamaly" → opt o k = v := by
    intro k v h
    have := hval k v h
    unfold opt
    rw [this]
    simp [dictGet?]
  let s0 : PairStat ℕ := ⟨0, 0, (0, 0), [some 0, some 1], [some 0, some 1], some (1 / 5), some 1, some 0⟩
  let s1 : PairStat ℕ := ⟨0, 1, (1, 0), [some 0, some 1], [some 0, some 1], some (1 / 5), some 1, some 0⟩
  let s2 : PairStat ℕ := ⟨0, 2, (0, 1), [some 0, some 1], [some 1, some 0], some (2 / 5), some 1, some 0⟩
  have hst : prepare (exExt2 m) exTs2 exPos (.one 0) "jamaly" "xcorr" = .ok [s0, s1, s2] := by
    unfold prepare
    rw [e1, e2, if_neg (by simp), if_neg (by simp)]
    have hp : getPairs (exPos.map Prod.fst) (some (RefArg.ids (.one 0) (exPos.map Prod.fst))) true = [(0, 0), (0, 1), (0, 2)] := by
      simp [exPos, getPairs, combosRepl, RefArg.ids]
    simp only [hp]
    rw [if_neg (by simp)]
    have a0 : statOf (exExt2 m) exTs2 exPos "xcorr" (0, 0) = .ok s0 := by simp [statOf, exTs2, exPos, exExt2, dictGet?, s0]
    have a1 : statOf (exExt2 m) exTs2 exPos "xcorr" (0, 1) = .ok s1 := by simp [statOf, exTs2, exPos, exExt2, dictGet?, s1]
    have a2 : statOf (exExt2 m) exTs2 exPos "xcorr" (0, 2) = .ok s2 := by simp [statOf, exTs2, exPos, exExt2, dictGet?, s2]
    simp only [List.mapM_cons, List.mapM_nil, a0, a1, a2, bind, Except.bind, pure, Except.pure]
  have g1 : pairFlag "jamaly" o s1 = .good := ex2_good o hov s1 (by simp [s1]) (by simp [s1]) (by simp [s1]) (by simp [s1, magnitude]) (1 / 5) rfl
    (by norm_num) rfl rfl
  have g2 : pairFlag "jamaly" o s2 = .good := ex2_good o hov s2 (by simp [s2]) (by simp [s2]) (by simp [s2]) (by simp [s2, magnitude]) (2 / 5) rfl
    (by norm_num) rfl rfl
  have hrows : (finish (exExt2 m) "jamaly" o [s0, s1, s2]).rows = [(s0, pairFlag "jamaly" o s0), (s1, .good), (s2, .good)] := by
    rw [finish_rows, if_neg (by decide)]
    simp only [List.map_cons, List.map_nil, g1, g2]
  refine ⟨finish (exExt2 m) "jamaly" o [s0, s1, s2], ?_, ?_, ?_, ?_⟩
  · unfold computeCmv
    rw [hst]
    simp only [e1, ho]
    rfl
  · rw [hrows]
    intro r hr hg
    simp only [List.mem_cons, List.not_mem_nil, or_false] at hr
    rcases hr with rfl | rfl | rfl
    · exact (((C26_good_iff "jamaly" o s0).1 hg).1 rfl).elim
    · norm_num [PlaneWave, s1]
    · norm_num [PlaneWave, s2]
  · rw [hrows]
    simp only [countFlag, List.countP_cons, decide_true, if_true]
    omega
  · rw [hrows]
    exact ⟨(s1, .good), by simp, (s2, .good), by simp, rfl, rfl, by norm_num [Independent, s1, s2], by norm_num [s1, s2]⟩

/-- The conclusions of C160 and C162 in this case. -/
example (m : (ℝ → Option ℝ) → ℝ) (hm : LocalMinimizer m) :
    ∃ s θ d md, computeCmvFull (exExt2 m) exTs2 exPos (.one 0) "jamaly" "xcorr" none = .ok (s, θ, d) ∧ d.methodData = some md ∧ md.rCorr = 1 ∧ md.stderr = 0 := by
  obtain ⟨out, h1, h2, -, r, hr, s, hs, gr, gs, hi, hd⟩ := ex2_wave m
  exact C162_noise_free_partial (exExt2 m) hm exTs2 exPos (.one 0) "jamaly" "xcorr" (by decide +kernel) none out h1 (1, 2) (by simp) h2
    ⟨r, hr, s, hs, gr, gs, hi⟩ ⟨r, hr, s, hs, gr, gs, hd⟩

example (m : (ℝ → Option ℝ) → ℝ) : ∃ s θ d flags, computeCmvFull (exExt2 m) exTs2 exPos (.one 0) "jamaly" "xcorr" none = .ok (s, θ, d) ∧
    d.pairFlag = some flags ∧ 2 ≤ flags.count .good := by
  obtain ⟨out, h1, -, h2, -⟩ := ex2_wave m
  refine ⟨_, _, _, out.rows.map Prod.snd, by unfold computeCmvFull; rw [h1]; rfl, ?_, ?_⟩
  · unfold dataOf
    split_ifs <;> rfl
  · refine h2.trans (le_of_eq ?_)
    unfold countFlag
    rw [List.count, List.countP_map]
    refine List.countP_congr fun r _ => ?_
    simp

/-! ## C163 -/

theorem forall_mem_right {α β : Type} {R : α → β → Prop} {l : List α} {l' : List β} (h : List.Forall₂ R l l') {b : β} (hb : b ∈ l') : ∃ a, R a b := by
  induction h with
  | nil => cases hb
  | cons hab _ ih =>
    rcases List.mem_cons.1 hb with rfl | hb
    · exact ⟨_, hab⟩
    · exact ih hb

theorem rows_stats (x : Ext) (method : String) (o : Dict) (stats : List (PairStat ι)) : (finish x method o stats).rows.map Prod.fst = stats := by
  rw [finish_rows]
  split_ifs <;> simp [gagneSelect, Function.comp_def]

theorem stat_fields {x : Ext} {ts : List (ι × List (Option ℝ))} {pos : List (ι × Vec)} {b : String} {p : ι × ι} {s : PairStat ι}
    (h : statOf x ts pos b p = .ok s) : (s.a, s.b) = p ∧ ∃ sa sb pa pb, (p.1, sa) ∈ ts ∧ (p.2, sb) ∈ ts ∧ (p.1, pa) ∈ pos ∧ (p.2, pb) ∈ pos ∧
      s.delay = (x.delays b sa sb).1 ∧ s.peak = (x.delays b sa sb).2.1 ∧ s.vec = (pb.1 - pa.1, pb.2 - pa.2) := by
  unfold statOf at h
  split at h
  · rename_i sa sb pa pb h1 h2 h3 h4
    cases h
    exact ⟨rfl, sa, sb, pa, pb, dictGet?_mem h1, dictGet?_mem h2, dictGet?_mem h3, dictGet?_mem h4, rfl, rfl, rfl⟩
  · cases h

theorem flags_good (x : Ext) (method : String) (out : Out ι) (flags : List Flag) (hfl : (dataOf x method out).pairFlag = some flags) :
    flags = out.rows.map Prod.snd ∧ (goodPairs out.rows).length = flags.count .good := by
  have hflags : flags = out.rows.map Prod.snd := by
    unfold dataOf at hfl
    split_ifs at hfl <;> exact (Option.some.inj hfl).symm
  refine ⟨hflags, ?_⟩
  rw [hflags]
  unfold goodPairs
  rw [List.length_map, ← List.countP_eq_length_filter, List.count, List.countP_map]
  refine List.countP_congr fun r _ => ?_
  simp

/-- C163 (the part that holds): with at least two GOOD pairs the data object repeats the returned speed and direction, and its lists have one
entry for each of the pairs, in the same order: the delay and the correlation the backend found for the two series, and the distance of the
two sites along the returned direction. -/
theorem C163_data_object_partial (x : Ext) (ts : List (ι × List (Option ℝ))) (pos : List (ι × Vec)) (ref : RefArg ι)
    (method backend : String) (options : Option Dict) (s θ : Option ℝ) (d : WindspeedData ι)
    (hout : computeCmvFull x ts pos ref method backend options = .ok (s, θ, d)) (flags : List Flag) (hfl : d.pairFlag = some flags)
    (h2 : 2 ≤ flags.count .good) :
    d.windSpeed = some s ∧ d.windAngle = some θ ∧ d.flag ≠ none ∧
      ∃ pairs lags corrs dists, d.allpairs = some pairs ∧ d.pairLag = some lags ∧ d.corrLag = some corrs ∧ d.pairDists = some dists ∧
        lags.length = pairs.length ∧ corrs.length = pairs.length ∧ dists.length = pairs.length ∧ flags.length = pairs.length ∧
        ∀ (n : ℕ) (a b : ι), pairs[n]? = some (a, b) → ∃ sa sb pa pb, (a, sa) ∈ ts ∧ (b, sb) ∈ ts ∧ (a, pa) ∈ pos ∧ (b, pb) ∈ pos ∧
          lags[n]? = some (x.delays backend.toLower sa sb).1 ∧ corrs[n]? = some (x.delays backend.toLower sa sb).2.1 ∧
          dists[n]? = some (θ.map fun t => (pb.1 - pa.1) * Real.cos t + (pb.2 - pa.2) * Real.sin t) := by
  unfold computeCmvFull at hout
  cases hc : (computeCmv x ts pos ref method backend options).1 with
  | error e => rw [hc] at hout; cases hout
  | ok out =>
    rw [hc] at hout
    cases hout
    obtain ⟨stats, o, hprep, -, hfin, hmm⟩ := computeCmv_ok hc
    obtain ⟨hflags, hlen⟩ := flags_good x _ out flags hfl
    have hbig : ¬ (goodPairs out.rows).length ≤ 1 := by omega
    have hdists : out.dists = some (out.rows.map fun r => out.angle.map fun t => r.1.vec.1 * Real.cos t + r.1.vec.2 * Real.sin t) := by
      have hr := finish_rows x method.toLower o stats
      rw [hfin, hr] at hbig
      rw [hfin]
      unfold finish
      simp only
      rw [if_neg hbig]
      simp only [unit_pol, Option.map_some, Option.some.injEq]
      refine List.map_congr_left fun r _ => ?_
      cases (normalise _ _).2 <;> rfl
    have hrow := rows_stats x method.toLower o stats
    rw [← hfin] at hrow
    have hst : ∀ r ∈ out.rows, ∃ p, statOf x ts pos backend.toLower p = .ok r.1 := by
      intro r hr
      have : r.1 ∈ stats := by rw [← hrow]; exact List.mem_map.2 ⟨r, hr, rfl⟩
      unfold prepare at hprep
      simp only at hprep
      split_ifs at hprep
      rw [mapM_forall₂] at hprep
      exact forall_mem_right hprep this
    unfold dataOf
    rw [if_neg hbig]
    refine ⟨rfl, rfl, by simp, _, _, _, _, rfl, rfl, rfl, hdists, by simp, by simp, by simp, by simp [hflags], ?_⟩
    intro n a b hn
    rw [List.getElem?_map] at hn
    cases hr : out.rows[n]? with
    | none => rw [hr] at hn; cases hn
    | some r =>
      rw [hr] at hn
      obtain ⟨p, hp⟩ := hst r (List.mem_of_getElem? hr)
      obtain ⟨e, sa, sb, pa, pb, h1, h2, h3, h4, h5, h6, h7⟩ := stat_fields hp
      have e2 : p = (a, b) := e.symm.trans (Option.some.inj hn)
      rw [e2] at h1 h2 h3 h4
      refine ⟨sa, sb, pa, pb, h1, h2, h3, h4, ?_, ?_, ?_⟩
      · rw [List.getElem?_map, hr, ← h5]; rfl
      · rw [List.getElem?_map, hr, ← h6]; rfl
      · rw [List.getElem?_map, hr, Option.map_some, h7]

/-- C163: whatever the result, `allpairs` lists the pairs of sites at the positions i ≤ j of the table (each site with itself included) of which
at least one is a reference, in lexicographic order, and `pair_flag` has one flag for each. -/
theorem C163_pairs (x : Ext) (ts : List (ι × List (Option ℝ))) (pos : List (ι × Vec)) (ref : RefArg ι) (method backend : String) (options : Option Dict)
    (s θ : Option ℝ) (d : WindspeedData ι) (hout : computeCmvFull x ts pos ref method backend options = .ok (s, θ, d)) :
    ∃ (pairs : List (ι × ι)) (flags : List Flag) (ix : List (ℕ × ℕ)), d.allpairs = some pairs ∧ d.pairFlag = some flags ∧ flags.length = pairs.length ∧ ix.Pairwise LexLt ∧
      (∀ i j, (i, j) ∈ ix ↔ i ≤ j ∧ ∃ p q : ι × Vec, pos[i]? = some p ∧ pos[j]? = some q ∧ (IsRef ref p.1 ∨ IsRef ref q.1)) ∧
      pairs.map (fun p => (some p.1, some p.2)) = ix.map fun p => ((pos[p.1]?).map Prod.fst, (pos[p.2]?).map Prod.fst) := by
  unfold computeCmvFull at hout
  cases hc : (computeCmv x ts pos ref method backend options).1 with
  | error e => rw [hc] at hout; cases hout
  | ok out =>
    rw [hc] at hout
    cases hout
    obtain ⟨stats, o, hprep, -, hfin, hmm⟩ := computeCmv_ok hc
    have hrow := rows_stats x method.toLower o stats
    rw [← hfin] at hrow
    have hpairs : (out.rows.map fun r => (r.1.a, r.1.b)) = getPairs (pos.map Prod.fst) (some (ref.ids (pos.map Prod.fst))) true := by
      have : (out.rows.map fun r => (r.1.a, r.1.b)) = stats.map fun s => (s.a, s.b) := by rw [← hrow, List.map_map]; rfl
      rw [this]
      unfold prepare at hprep
      simp only at hprep
      split_ifs at hprep
      rw [mapM_forall₂] at hprep
      generalize getPairs (pos.map Prod.fst) (some (ref.ids (pos.map Prod.fst))) true = ps at hprep
      clear * - hprep
      induction hprep with
      | nil => rfl
      | cons hab _ ih => rw [List.map_cons, ih, (stat_fields hab).1]
    obtain ⟨ix, h1, h2, h3⟩ := C25_pairs (pos.map Prod.fst) (some (ref.ids (pos.map Prod.fst))) true
    have ha : (dataOf x method.toLower out).allpairs = some (out.rows.map fun r => (r.1.a, r.1.b)) := by
      unfold dataOf
      split_ifs <;> rfl
    have hf : (dataOf x method.toLower out).pairFlag = some (out.rows.map Prod.snd) := by
      unfold dataOf
      split_ifs <;> rfl
    refine ⟨_, _, ix, ha, hf, by simp, h1, fun i j => ?_, ?_⟩
    · rw [h2]
      simp only [if_true, List.length_map, List.getElem_map, reduceCtorEq, false_or, Option.some.injEq, exists_eq_left']
      constructor
      · rintro ⟨hi, hj, hij, hr⟩
        refine ⟨hij, pos[i], pos[j], List.getElem?_eq_getElem hi, List.getElem?_eq_getElem hj, ?_⟩
        exact hr.imp (isRef_iff (List.mem_map.2 ⟨_, List.getElem_mem hi, rfl⟩)).2 (isRef_iff (List.mem_map.2 ⟨_, List.getElem_mem hj, rfl⟩)).2
      · rintro ⟨hij, p, q, hp, hq, hr⟩
        obtain ⟨hi, rfl⟩ := List.getElem?_eq_some_iff.1 hp
        obtain ⟨hj, rfl⟩ := List.getElem?_eq_some_iff.1 hq
        exact ⟨hi, hj, hij, hr.imp (isRef_iff (List.mem_map.2 ⟨_, List.getElem_mem hi, rfl⟩)).1 (isRef_iff (List.mem_map.2 ⟨_, List.getElem_mem hj, rfl⟩)).1⟩
    · rw [hpairs, h3]
      simp only [List.getElem?_map]

/-- C163 fails with fewer GOOD pairs, whatever the input: the call returns speed 0 and direction 0, the data object has neither these nor the
lags, the distances or `method_data`. -/
theorem C163_violated_null_result (x : Ext) (ts : List (ι × List (Option ℝ))) (pos : List (ι × Vec)) (ref : RefArg ι)
    (method backend : String) (options : Option Dict) (s θ : Option ℝ) (d : WindspeedData ι)
    (hout : computeCmvFull x ts pos ref method backend options = .ok (s, θ, d)) (flags : List Flag) (hfl : d.pairFlag = some flags)
    (h2 : flags.count .good ≤ 1) :
    s = some 0 ∧ θ = some 0 ∧ d.flag = some .allbad ∧ d.windSpeed = none ∧ d.windAngle = none ∧ d.pairLag = none ∧ d.pairDists = none ∧
      d.corrLag = none ∧ d.methodData = none := by
  unfold computeCmvFull at hout
  cases hc : (computeCmv x ts pos ref method backend options).1 with
  | error e => rw [hc] at hout; cases hout
  | ok out =>
    rw [hc] at hout
    cases hout
    obtain ⟨stats, o, hprep, -, hfin, hmm⟩ := computeCmv_ok hc
    obtain ⟨hflags, hlen⟩ := flags_good x _ out flags hfl
    have hbig : (goodPairs out.rows).length ≤ 1 := by omega
    have hall : out.speed = some 0 ∧ out.angle = some 0 ∧ out.flag = .allbad := by
      have hr := finish_rows x method.toLower o stats
      rw [hfin, hr] at hbig
      rw [hfin]
      unfold finish
      simp only
      rw [if_pos hbig]
      exact ⟨rfl, rfl, rfl⟩
    unfold dataOf
    rw [if_pos hbig]
    exact ⟨hall.1, hall.2.1, by rw [hall.2.2], rfl, rfl, rfl, rfl, rfl, rfl⟩

/-- One site: the only pair is that of the site with itself. -/
example (x : Ext) : ∃ s θ d flags, computeCmvFull x [(0, [some 1, some 2])] [(0, (0, 0))] .none "jamaly" "xcorr" none = .ok (s, θ, d) ∧
    d.pairFlag = some flags ∧ flags.count .good ≤ 1 := by
  have e1 : "jamaly".toLower = "jamaly" := by decide +kernel
  have e2 : "xcorr".toLower = "xcorr" := by decide +kernel
  have hp : ∃ st, prepare x [(0, [some 1, some 2])] [(0, (0, 0))] .none "jamaly" "xcorr" = .ok [st] := by
    unfold prepare
    rw [e1, e2, if_neg (by simp), if_neg (by simp)]
    simp [getPairs, combosRepl, RefArg.ids, statOf, dictGet?, List.mapM_cons, List.mapM_nil, bind, Except.bind, pure, Except.pure]
  obtain ⟨st, hst⟩ := hp
  have hc : ∃ o, (computeCmv x [(0, [some 1, some 2])] [(0, (0, 0))] .none "jamaly" "xcorr" none).1 = .ok (finish x "jamaly" o [st]) := by
    unfold computeCmv
    rw [hst, e1]
    simp [validateOptions, Except.map, defaults]
    exact ⟨_, rfl⟩
  obtain ⟨o, ho⟩ := hc
  refine ⟨_, _, _, (finish x "jamaly" o [st]).rows.map Prod.snd, by unfold computeCmvFull; rw [ho]; rfl, ?_, ?_⟩
  · unfold dataOf
    split_ifs <;> rfl
  · refine List.count_le_length.trans ?_
    have := congrArg List.length (rows_stats x "jamaly" o [st])
    simp at this ⊢
    omega

/-! ## C164 -/

theorem sqResid_polar (rows : List (PairStat ι × Flag)) (s θ : ℝ) : sqResid (goodMoves rows) (Real.cos θ / s, Real.sin θ / s) = misfit rows s θ := by
  unfold sqResid misfit
  congr 1
  refine List.map_congr_left fun p _ => ?_
  ring

theorem sqResid_zero (rows : List (PairStat ι × Flag)) : sqResid (goodMoves rows) (0, 0) = misfitFast rows := by
  unfold sqResid misfitFast
  congr 1
  refine List.map_congr_left fun p _ => ?_
  ring

/-- C164: with gagne and at least two GOOD pairs, the speed and direction returned fit the delays of the GOOD pairs better than any other speed
and direction; if no motion fits better than an infinitely fast one, both are NaN. -/
theorem C164_gagne_report (x : Ext) (hlsq : ExactLsq x.leastsq) (ts : List (ι × List (Option ℝ))) (pos : List (ι × Vec)) (ref : RefArg ι)
    (method backend : String) (hm : method.toLower = "gagne") (options : Option Dict) (out : Out ι)
    (hout : (computeCmv x ts pos ref method backend options).1 = .ok out) (h2 : 2 ≤ countFlag .good out.rows)
    (hd : ∀ r ∈ out.rows, r.2 = .good → r.1.delay ≠ none) :
    (out.speed = none ∧ out.angle = none ∧ ∀ s θ, 0 < s → misfitFast out.rows ≤ misfit out.rows s θ) ∨
    ∃ s θ, out.speed = some s ∧ out.angle = some θ ∧ 0 < s ∧ 0 ≤ θ ∧ θ < 2 * Real.pi ∧
      (∀ s' θ', 0 < s' → misfit out.rows s θ ≤ misfit out.rows s' θ') ∧ misfit out.rows s θ ≤ misfitFast out.rows ∧
      out.dists = some (out.rows.map fun r => some (r.1.vec.1 * Real.cos θ + r.1.vec.2 * Real.sin θ)) := by
  obtain ⟨stats, o, -, -, hfin, -⟩ := computeCmv_ok hout
  rw [hm] at hfin
  have hgp := goodPairs_moves hd
  have hlen : ¬ (goodPairs out.rows).length ≤ 1 := by
    rw [hgp, asGood, List.length_map, goodMoves_length hd]
    omega
  have hmin : ∀ a, sqResid (goodMoves out.rows) (x.leastsq (goodPairs out.rows)) ≤ sqResid (goodMoves out.rows) a := by
    intro a
    rw [hgp]
    exact hlsq _ a
  have hrows := finish_rows x "gagne" o stats
  rw [← hfin] at hrows
  have hsp : (out.speed, out.angle) = normalise (gagne x (goodPairs out.rows)).1 (gagne x (goodPairs out.rows)).2 ∧
      out.dists = some (out.rows.map fun p => out.angle.bind fun t => (unit (pol2rect 1 t)).map fun u => p.1.vec.1 * u.1 + p.1.vec.2 * u.2) := by
    rw [hrows] at hlen ⊢
    rw [hfin]
    simp only [if_true] at hlen
    unfold finish
    simp only [if_true]
    rw [if_neg hlen]
    simp only [if_neg (show ¬ "gagne" = "jamaly" by decide)]
    exact ⟨by trivial, by trivial⟩
  obtain ⟨hsp, hdist⟩ := hsp
  generalize ha : x.leastsq (goodPairs out.rows) = a at hmin
  have hga : gagne x (goodPairs out.rows) = if a.1 ^ 2 + a.2 ^ 2 = 0 then (none, none)
      else (some (magnitude (1 / (a.1 ^ 2 + a.2 ^ 2) * a.1, 1 / (a.1 ^ 2 + a.2 ^ 2) * a.2)),
        some (arctan2 (1 / (a.1 ^ 2 + a.2 ^ 2) * a.2) (1 / (a.1 ^ 2 + a.2 ^ 2) * a.1))) := by
    unfold gagne
    rw [ha]
  rw [hga] at hsp
  by_cases h0 : a.1 ^ 2 + a.2 ^ 2 = 0
  · left
    rw [if_pos h0] at hsp
    have e1 : a.1 = 0 := by nlinarith [sq_nonneg a.1, sq_nonneg a.2]
    have e2 : a.2 = 0 := by nlinarith [sq_nonneg a.1, sq_nonneg a.2]
    have ea : a = (0, 0) := Prod.ext e1 e2
    have hn : normalise none none = (none, none) := rfl
    rw [hn] at hsp
    refine ⟨(Prod.mk.inj hsp).1, (Prod.mk.inj hsp).2, fun s θ _ => ?_⟩
    rw [← sqResid_zero, ← sqResid_polar, ← ea]
    exact hmin _
  · right
    rw [if_neg h0] at hsp
    set q := a.1 ^ 2 + a.2 ^ 2 with hq
    have hqp : 0 < q := lt_of_le_of_ne (by positivity) (Ne.symm h0)
    set W : Vec := (1 / q * a.1, 1 / q * a.2) with hW
    obtain ⟨p1, p2⟩ := polar_of_vec (V := W)
    have hW0 : W ≠ 0 := by
      intro h
      have h1 : 1 / q * a.1 = 0 := congrArg Prod.fst h
      have h2 : 1 / q * a.2 = 0 := congrArg Prod.snd h
      have hq' : (1 / q : ℝ) ≠ 0 := by positivity
      have e1 := (mul_eq_zero.1 h1).resolve_left hq'
      have e2 := (mul_eq_zero.1 h2).resolve_left hq'
      rw [hq, e1, e2] at h0
      norm_num at h0
    have hmp := magnitude_pos hW0
    obtain ⟨t, ht, t0, t1, ht2⟩ := normalise_some (magnitude W) (arctan2 W.2 W.1)
    rw [abs_of_pos hmp] at ht ht2
    have hsp' : (out.speed, out.angle) = (some (magnitude W), some t) := hsp.trans ht
    have c1 : magnitude W * Real.cos t = W.1 := (congrArg Prod.fst ht2).trans p1.symm
    have c2 : magnitude W * Real.sin t = W.2 := (congrArg Prod.snd ht2).trans p2.symm
    have hmsq : magnitude W ^ 2 = 1 / q := by
      have : magnitude W ^ 2 = W.1 ^ 2 + W.2 ^ 2 := by
        rw [← c1, ← c2]
        linear_combination (- magnitude W ^ 2) * Real.sin_sq_add_cos_sq t
      rw [this, hW]
      simp only
      field_simp
      rw [hq]
    have b1 : Real.cos t / magnitude W = a.1 := by
      have : Real.cos t / magnitude W = magnitude W * Real.cos t / magnitude W ^ 2 := by field_simp
      rw [this, c1, hmsq, hW]
      simp only
      field_simp
    have b2 : Real.sin t / magnitude W = a.2 := by
      have : Real.sin t / magnitude W = magnitude W * Real.sin t / magnitude W ^ 2 := by field_simp
      rw [this, c2, hmsq, hW]
      simp only
      field_simp
    have hbest : misfit out.rows (magnitude W) t = sqResid (goodMoves out.rows) a := by
      rw [← sqResid_polar, b1, b2]
    have hang := (Prod.mk.inj hsp').2
    refine ⟨magnitude W, t, (Prod.mk.inj hsp').1, hang, hmp, t0, t1, fun s' θ' _ => ?_, ?_, ?_⟩
    · rw [hbest, ← sqResid_polar]
      exact hmin _
    · rw [hbest, ← sqResid_zero]
      exact hmin _
    · rw [hdist, hang]
      simp only [Option.bind_some, unit_pol, Option.map_some]

/-- The hypotheses of C164 hold in a concrete case. -/
example (l : List (Option ℝ × Vec) → Vec) (m : (ℝ → Option ℝ) → ℝ) :
    ∃ out, (computeCmv (exExt l m) exTs exPos (.one 0) "gagne" "xcorr" none).1 = .ok out ∧ 2 ≤ countFlag .good out.rows ∧
      ∀ r ∈ out.rows, r.2 = .good → r.1.delay ≠ none := by
  obtain ⟨out, h1, h2, r, hr, s, hs, gr, gs, hi⟩ := ex_wave_gagne l m
  refine ⟨out, h1, ?_, fun r hr hg => by rw [h2 r hr hg]; simp⟩
  unfold countFlag
  rw [List.countP_eq_length_filter]
  have hr' : r ∈ out.rows.filter fun r => r.2 = .good := List.mem_filter.2 ⟨hr, by simpa using gr⟩
  have hs' : s ∈ out.rows.filter fun r => r.2 = .good := List.mem_filter.2 ⟨hs, by simpa using gs⟩
  generalize (out.rows.filter fun r => decide (r.2 = .good)) = L at hr' hs'
  match L with
  | [] => cases hr'
  | [y] =>
    rw [List.mem_singleton.1 hr', List.mem_singleton.1 hs'] at hi
    exact (hi (by ring)).elim
  | y :: z :: L => simp

end SST.Props.Cmv
