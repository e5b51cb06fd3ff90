import Verif.Spec.RobustCmv
import Verif.Props.CmvReport
import Verif.Props.Robust

/-!
# Properties C204, C205: `compute_cmv` with inexact delays

Specifications: `Spec/RobustCmv.lean`, `Spec/CmvReport.lean`.
-/

namespace SST.Props.RobustCmv
open SST SST.Cmv SST.Spec SST.Spatial SST.Props.Cmv

variable {ι : Type}

/-! ## C204 -/

/-- The least squares solution is a projection: it is not farther from any candidate than the data are. -/
private theorem lsq_contract (L : List (ℝ × Vec)) (a b : Vec) (h : ∀ c, sqResid L a ≤ sqResid L c) :
    (L.map fun p => (p.2.1 * (a.1 - b.1) + p.2.2 * (a.2 - b.2)) ^ 2).sum ≤ sqResid L b := by
  set A := (L.map fun p => (p.2.1 * (a.1 - b.1) + p.2.2 * (a.2 - b.2)) ^ 2).sum with hA
  set B := (L.map fun p => (p.1 - (p.2.1 * a.1 + p.2.2 * a.2)) * (p.2.1 * (a.1 - b.1) + p.2.2 * (a.2 - b.2))).sum with hB
  have key : ∀ t : ℝ, sqResid L (a.1 + t * (a.1 - b.1), a.2 + t * (a.2 - b.2)) = sqResid L a - 2 * t * B + t ^ 2 * A := by
    intro t
    rw [hA, hB]
    unfold sqResid
    clear h hA hB
    induction L with
    | nil => simp
    | cons p L ih =>
      simp only [List.map_cons, List.sum_cons]
      simp only at ih
      rw [ih]
      ring
  have hA0 : 0 ≤ A := by
    apply List.sum_nonneg
    intro x hx
    obtain ⟨p, -, rfl⟩ := List.mem_map.1 hx
    positivity
  have hq : ∀ t : ℝ, 0 ≤ t ^ 2 * A - 2 * t * B := by
    intro t
    have := h (a.1 + t * (a.1 - b.1), a.2 + t * (a.2 - b.2))
    rw [key t] at this
    linarith
  have hB0 : B = 0 := by
    by_contra hne
    by_cases hz : A = 0
    · have h1 := hq B
      rw [hz] at h1
      have : 0 < B ^ 2 := by positivity
      nlinarith
    · have hp : 0 < A := lt_of_le_of_ne hA0 (Ne.symm hz)
      have h1 := hq (B / A)
      have e : (B / A) ^ 2 * A - 2 * (B / A) * B = - (B ^ 2 / A) := by field_simp; ring
      rw [e] at h1
      have : 0 < B ^ 2 / A := by positivity
      linarith
  have e := key (-1)
  have e2 : ((a.1 + -1 * (a.1 - b.1), a.2 + -1 * (a.2 - b.2)) : Vec) = b := by ext <;> simp
  rw [e2, hB0] at e
  have h0 : 0 ≤ sqResid L a := by
    unfold sqResid
    apply List.sum_nonneg
    intro x hx
    obtain ⟨p, -, rfl⟩ := List.mem_map.1 hx
    positivity
  linarith

/-- A slowness vector is that of a motion, or zero. -/
private theorem slowness (c : Vec) : c = 0 ∨ ∃ s θ, 0 < s ∧ c = (Real.cos θ / s, Real.sin θ / s) := by
  by_cases hc : c = 0
  · exact Or.inl hc
  right
  have hm := magnitude_pos hc
  obtain ⟨h1, h2⟩ := polar_of_vec (V := c)
  refine ⟨1 / magnitude c, arctan2 c.2 c.1, by positivity, ?_⟩
  ext
  · rw [div_div_eq_mul_div, div_one, mul_comm]; exact h1
  · show c.2 = Real.sin (arctan2 c.2 c.1) / (1 / magnitude c)
    rw [div_div_eq_mul_div, div_one, mul_comm]; exact h2

variable [DecidableEq ι]

/-- C204: with gagne, the travel times between the GOOD pairs of the motion returned are, in the root mean square, not farther from those
of any other motion (`s₀`, `θ₀`), the true one for instance, than the delays are. -/
theorem C204_travel_times (x : Ext) (hlsq : ExactLsq x.leastsq) (ts : List (ι × List (Option ℝ))) (pos : List (ι × Vec)) (ref : RefArg ι)
    (method backend : String) (hm : method.toLower = "gagne") (options : Option Dict) (out : Out ι)
    (hout : (computeCmv x ts pos ref method backend options).1 = .ok out) (h2 : 2 ≤ countFlag .good out.rows)
    (hd : ∀ r ∈ out.rows, r.2 = .good → r.1.delay ≠ none) (s₀ θ₀ : ℝ) :
    (out.speed = none ∧ out.angle = none ∧
      ((goodMoves out.rows).map fun p => travelTime s₀ θ₀ p.2 ^ 2).sum ≤ misfit out.rows s₀ θ₀) ∨
    ∃ s θ, out.speed = some s ∧ out.angle = some θ ∧ 0 < s ∧
      ((goodMoves out.rows).map fun p => (travelTime s θ p.2 - travelTime s₀ θ₀ p.2) ^ 2).sum ≤ misfit out.rows s₀ θ₀ := by
  have e0 : sqResid (goodMoves out.rows) 0 = misfitFast out.rows := by
    unfold sqResid misfitFast; simp
  rcases C164_gagne_report x hlsq ts pos ref method backend hm options out hout h2 hd with ⟨h1, h3, h4⟩ | ⟨s, θ, h1, h3, hs, -, -, h4, h5, -⟩
  · left
    refine ⟨h1, h3, ?_⟩
    have hmin : ∀ c, sqResid (goodMoves out.rows) 0 ≤ sqResid (goodMoves out.rows) c := by
      intro c
      rcases slowness c with rfl | ⟨s, θ, hs, rfl⟩
      · exact le_refl _
      · rw [e0, sqResid_polar]; exact h4 s θ hs
    have := lsq_contract _ 0 (Real.cos θ₀ / s₀, Real.sin θ₀ / s₀) hmin
    rw [sqResid_polar] at this
    convert this using 3
    funext p
    simp only [travelTime, Prod.fst_zero, Prod.snd_zero]
    ring
  · right
    refine ⟨s, θ, h1, h3, hs, ?_⟩
    have hmin : ∀ c, sqResid (goodMoves out.rows) (Real.cos θ / s, Real.sin θ / s) ≤ sqResid (goodMoves out.rows) c := by
      intro c
      rw [sqResid_polar]
      rcases slowness c with rfl | ⟨s', θ', hs', rfl⟩
      · rw [e0]; exact h5
      · rw [sqResid_polar]; exact h4 s' θ' hs'
    have := lsq_contract _ _ (Real.cos θ₀ / s₀, Real.sin θ₀ / s₀) hmin
    rw [sqResid_polar] at this
    convert this using 3
    funext p
    simp only [travelTime]
    ring

private theorem misfit_le (rows : List (PairStat ι × Flag)) (hd : ∀ r ∈ rows, r.2 = .good → r.1.delay ≠ none) (s₀ θ₀ ε : ℝ)
    (hε : ∀ r ∈ rows, r.2 = .good → ∀ τ, r.1.delay = some τ → |τ - travelTime s₀ θ₀ r.1.vec| ≤ ε) :
    misfit rows s₀ θ₀ ≤ countFlag .good rows * ε ^ 2 := by
  have hl := goodMoves_length hd
  have hall : ∀ p ∈ goodMoves rows, (p.1 - (p.2.1 * Real.cos θ₀ + p.2.2 * Real.sin θ₀) / s₀) ^ 2 ≤ ε ^ 2 := by
    intro p hp
    obtain ⟨r, hr, e⟩ := List.mem_filterMap.1 hp
    split_ifs at e with hg
    obtain ⟨τ, h1, rfl⟩ := Option.map_eq_some_iff.1 e
    have := hε r hr hg τ h1
    rw [← sq_abs]
    exact pow_le_pow_left₀ (abs_nonneg _) this 2
  unfold misfit
  rw [← hl]
  generalize goodMoves rows = L at hall
  induction L with
  | nil => simp
  | cons p L ih =>
    have h1 := hall p (by simp)
    have h2 := ih fun q hq => hall q (by simp [hq])
    simp only [List.map_cons, List.sum_cons, List.length_cons]
    push_cast
    linarith

private theorem vel_diff {s s₀ : ℝ} (hs : 0 < s) (hs₀ : 0 < s₀) (θ θ₀ : ℝ) :
    pdist (s * Real.cos θ, s * Real.sin θ) (s₀ * Real.cos θ₀, s₀ * Real.sin θ₀) =
      s * s₀ * pdist (Real.cos θ / s, Real.sin θ / s) (Real.cos θ₀ / s₀, Real.sin θ₀ / s₀) := by
  have h : 0 ≤ s * s₀ := by positivity
  unfold pdist
  rw [← Real.sqrt_sq h, ← Real.sqrt_mul (by positivity)]
  congr 1
  simp only
  have a1 := Real.sin_sq_add_cos_sq θ
  have a2 := Real.sin_sq_add_cos_sq θ₀
  field_simp
  linear_combination (s ^ 2 - s₀ ^ 2) * a1 + (s₀ ^ 2 - s ^ 2) * a2

/-- C204: if the delay of no GOOD pair is off by more than `ε`, the velocity returned by gagne differs from the true one by at most
`s s₀ ε √N (|p| + |q|) / |p × q|`, for any two GOOD pairs with vectors `p` and `q`; `N` is the number of GOOD pairs. -/
theorem C204_velocity (x : Ext) (hlsq : ExactLsq x.leastsq) (ts : List (ι × List (Option ℝ))) (pos : List (ι × Vec)) (ref : RefArg ι)
    (method backend : String) (hm : method.toLower = "gagne") (options : Option Dict) (out : Out ι)
    (hout : (computeCmv x ts pos ref method backend options).1 = .ok out) (h2 : 2 ≤ countFlag .good out.rows)
    (hd : ∀ r ∈ out.rows, r.2 = .good → r.1.delay ≠ none) (s₀ θ₀ ε : ℝ) (hs₀ : 0 < s₀) (hε0 : 0 ≤ ε)
    (hε : ∀ r ∈ out.rows, r.2 = .good → ∀ τ, r.1.delay = some τ → |τ - travelTime s₀ θ₀ r.1.vec| ≤ ε) :
    ((∃ r ∈ out.rows, r.2 = .good ∧ countFlag .good out.rows * ε ^ 2 < travelTime s₀ θ₀ r.1.vec ^ 2) → out.speed ≠ none) ∧
    ∀ s θ, out.speed = some s → out.angle = some θ → ∀ r ∈ out.rows, r.2 = .good → ∀ q ∈ out.rows, q.2 = .good →
      |r.1.vec.1 * q.1.vec.2 - r.1.vec.2 * q.1.vec.1| *
          pdist (s * Real.cos θ, s * Real.sin θ) (s₀ * Real.cos θ₀, s₀ * Real.sin θ₀) ≤
        s * s₀ * (ε * Real.sqrt (countFlag .good out.rows)) * (magnitude r.1.vec + magnitude q.1.vec) := by
  have hmf := misfit_le out.rows hd s₀ θ₀ ε hε
  have hmem : ∀ r ∈ out.rows, r.2 = .good → ∃ τ, (τ, r.1.vec) ∈ goodMoves out.rows := by
    intro r hr hg
    obtain ⟨τ, hτ⟩ := Option.ne_none_iff_exists'.1 (hd r hr hg)
    exact ⟨τ, List.mem_filterMap.2 ⟨r, hr, by rw [if_pos hg, hτ]; rfl⟩⟩
  have hone : ∀ (g : ℝ × Vec → ℝ) (p : ℝ × Vec), p ∈ goodMoves out.rows →
      g p ^ 2 ≤ ((goodMoves out.rows).map fun p => g p ^ 2).sum := by
    intro g p hp
    refine List.single_le_sum ?_ _ (List.mem_map.2 ⟨p, hp, rfl⟩)
    intro y hy
    obtain ⟨q, -, rfl⟩ := List.mem_map.1 hy
    positivity
  rcases C204_travel_times x hlsq ts pos ref method backend hm options out hout h2 hd s₀ θ₀ with ⟨h1, h3, h4⟩ | ⟨s, θ, h1, h3, hs, h4⟩
  · refine ⟨?_, ?_⟩
    · rintro ⟨r, hr, hg, hlt⟩
      obtain ⟨τ, hτ⟩ := hmem r hr hg
      have := hone (fun p => travelTime s₀ θ₀ p.2) _ hτ
      simp only at this
      linarith
    · intro s θ hs'
      rw [h1] at hs'; cases hs'
  · refine ⟨fun _ => by rw [h1]; simp, ?_⟩
    intro s' θ' hs' hθ' r hr hg q hq hgq
    rw [h1] at hs'
    rw [h3] at hθ'
    cases hs'
    cases hθ'
    set a : Vec := (Real.cos θ / s, Real.sin θ / s) with ha
    set b : Vec := (Real.cos θ₀ / s₀, Real.sin θ₀ / s₀) with hb
    have hcomp : ∀ r ∈ out.rows, r.2 = .good → |along (a - b) r.1.vec| ≤ ε * Real.sqrt (countFlag .good out.rows) := by
      intro r hr hg
      obtain ⟨τ, hτ⟩ := hmem r hr hg
      have := hone (fun p => travelTime s θ p.2 - travelTime s₀ θ₀ p.2) _ hτ
      have e : along (a - b) r.1.vec = travelTime s θ r.1.vec - travelTime s₀ θ₀ r.1.vec := by
        simp only [along, travelTime, ha, hb, Prod.fst_sub, Prod.snd_sub]
        ring
      rw [e]
      apply abs_le_of_sq_le_sq _ (by positivity)
      rw [mul_pow, Real.sq_sqrt (by positivity)]
      simp only at this
      linarith
    rw [vel_diff hs hs₀]
    have t := Robust.two_components a b r.1.vec q.1.vec
    have c1 := hcomp r hr hg
    have c2 := hcomp q hq hgq
    have m1 : 0 ≤ magnitude r.1.vec := Real.sqrt_nonneg _
    have m2 : 0 ≤ magnitude q.1.vec := Real.sqrt_nonneg _
    have c3 := mul_le_mul_of_nonneg_right c1 m2
    have c4 := mul_le_mul_of_nonneg_right c2 m1
    have hss : 0 ≤ s * s₀ := by positivity
    have := mul_le_mul_of_nonneg_left (t.trans (add_le_add c3 c4)) hss
    linarith

private theorem ex_two {rows : List (PairStat ℕ × Flag)}
    (h : ∃ r ∈ rows, ∃ s ∈ rows, r.2 = .good ∧ s.2 = .good ∧ Independent r.1.vec s.1.vec) : 2 ≤ countFlag .good rows := by
  obtain ⟨r, hr, s, hs, gr, gs, hi⟩ := h
  unfold countFlag
  rw [List.countP_eq_length_filter]
  have hr' : r ∈ rows.filter fun r => r.2 = .good := List.mem_filter.2 ⟨hr, by simpa using gr⟩
  have hs' : s ∈ rows.filter fun r => r.2 = .good := List.mem_filter.2 ⟨hs, by simpa using gs⟩
  generalize (rows.filter fun r => decide (r.2 = .good)) = L at hr' hs'
  match L with
  | [] => cases hr'
  | [y] =>
    rw [List.mem_singleton.1 hr', List.mem_singleton.1 hs'] at hi
    exact (hi (by ring)).elim
  | y :: z :: L => simp

/-- In the examples for C34 the true speed may be 10 percent larger than that of the delays. -/
private theorem ex_travel (d : Vec) : travelTime (10 / 9 * Real.sqrt 2) (Real.pi / 4) d = 9 / 10 * ((d.1 * 1 + d.2 * 1) / (1 ^ 2 + 1 ^ 2)) := by
  unfold travelTime
  rw [Real.cos_pi_div_four, Real.sin_pi_div_four]
  have : (0 : ℝ) < Real.sqrt 2 := by positivity
  field_simp
  ring

private theorem ex_half (l : List (Option ℝ × Vec) → Vec) (m : (ℝ → Option ℝ) → ℝ) (method : String)
    (hm : method.toLower = "jamaly" ∨ method.toLower = "gagne") (out : Out ℕ)
    (h : (computeCmv (exExt l m) exTs exPos (.one 0) method "xcorr" none).1 = .ok out) : ∀ r ∈ out.rows, r.1.delay = some (1 / 2) := by
  obtain ⟨stats, o, h1, -, h3, -⟩ := computeCmv_ok h
  rw [ex_prepare l m method hm] at h1
  cases h1
  intro r hr
  have hs := rows_stats (exExt l m) method.toLower o [exStat 0 0 (0, 0), exStat 0 1 (1, 0), exStat 0 2 (0, 1)]
  rw [← h3] at hs
  have : r.1 ∈ out.rows.map Prod.fst := List.mem_map_of_mem hr
  rw [hs] at this
  simp only [List.mem_cons, List.not_mem_nil, or_false] at this
  rcases this with e | e | e <;> rw [e] <;> rfl

/-- Three sites, two GOOD pairs with delays that are 10 percent (at most 0.05 s) too long. -/
example (l : List (Option ℝ × Vec) → Vec) (m : (ℝ → Option ℝ) → ℝ) (hl : ExactLsq l) :
    ∃ out s θ, (computeCmv (exExt l m) exTs exPos (.one 0) "gagne" "xcorr" none).1 = .ok out ∧ out.speed = some s ∧ out.angle = some θ ∧
      ((goodMoves out.rows).map fun p => (travelTime s θ p.2 - travelTime (10 / 9 * Real.sqrt 2) (Real.pi / 4) p.2) ^ 2).sum ≤
        countFlag .good out.rows * 0.05 ^ 2 := by
  obtain ⟨out, h1, h2, h3⟩ := ex_wave_gagne l m
  have hg := ex_two h3
  have e1 : "gagne".toLower = "gagne" := by decide +kernel
  have hh := ex_half l m _ (Or.inr e1) out h1
  have hd : ∀ r ∈ out.rows, r.2 = .good → r.1.delay ≠ none := fun r hr _ => by rw [hh r hr]; simp
  have hx : ExactLsq (exExt l m).leastsq := hl
  have hε : ∀ r ∈ out.rows, r.2 = .good → ∀ τ, r.1.delay = some τ →
      |τ - travelTime (10 / 9 * Real.sqrt 2) (Real.pi / 4) r.1.vec| ≤ 0.05 := by
    intro r hr hgr τ hτ
    have hp := h2 r hr hgr
    unfold PlaneWave at hp
    rw [ex_travel]
    have e := hp
    rw [hh r hr] at e
    simp only at e
    rw [← Option.some.inj e]
    rw [hh r hr] at hτ
    cases hτ
    norm_num [abs_le]
  have hmf := misfit_le out.rows hd _ _ _ hε
  rcases C204_travel_times _ hx exTs exPos (.one 0) "gagne" "xcorr" e1 none out h1 hg hd (10 / 9 * Real.sqrt 2) (Real.pi / 4) with
    ⟨a1, a2, a3⟩ | ⟨s, θ, a1, a2, -, a4⟩
  · exfalso
    obtain ⟨r, hr, -, -, gr, -, -⟩ := h3
    have hlt : (countFlag .good out.rows : ℝ) * 0.05 ^ 2 < travelTime (10 / 9 * Real.sqrt 2) (Real.pi / 4) r.1.vec ^ 2 := by
      have hp := h2 r hr gr
      unfold PlaneWave at hp
      rw [hh r hr] at hp
      rw [ex_travel]
      simp only at hp
      rw [← Option.some.inj hp]
      have hc : countFlag .good out.rows ≤ 3 := by
        refine List.countP_le_length.trans ?_
        obtain ⟨stats, o, p1, -, p3, -⟩ := computeCmv_ok h1
        rw [ex_prepare l m _ (Or.inr e1)] at p1
        cases p1
        have hs := congrArg List.length (rows_stats (exExt l m) "gagne".toLower o [exStat 0 0 (0, 0), exStat 0 1 (1, 0), exStat 0 2 (0, 1)])
        rw [← p3, List.length_map] at hs
        simp [hs]
      have : (countFlag .good out.rows : ℝ) ≤ 3 := by exact_mod_cast hc
      norm_num
      linarith
    exact (C204_velocity _ hx exTs exPos (.one 0) "gagne" "xcorr" e1 none out h1 hg hd _ _ 0.05 (by positivity) (by norm_num) hε).1
      ⟨r, hr, gr, hlt⟩ a1
  · exact ⟨out, s, θ, h1, a1, a2, a4.trans hmf⟩

/-! ## C205 -/

private theorem speed_form (rows : List (PairStat ι × Flag)) {θ : ℝ} (h : IsLocalMin (fun t => variance (goodSpeeds rows t)) θ) :
    ∃ P R : ℝ, R ≤ 0 ∧ ∀ t, variance (goodSpeeds rows t) = P + R * Real.cos (2 * (t - θ)) := by
  obtain ⟨P, Q, S, e⟩ := variance_speed (goodMoves rows)
  have e' : ∀ t, variance (goodSpeeds rows t) = P + Q * Real.cos (2 * t) + S * Real.sin (2 * t) := e
  simp only [e'] at h ⊢
  obtain ⟨h1, h2⟩ := trig_localMin h
  refine ⟨P, Q * Real.cos (2 * θ) + S * Real.sin (2 * θ), h2, ?_⟩
  intro t
  rw [show 2 * t = 2 * θ + 2 * (t - θ) by ring, Real.cos_add, Real.sin_add]
  linear_combination Real.sin (2 * (t - θ)) * h1

private theorem cos_two (a : ℝ) : Real.cos (2 * a) = 1 - 2 * Real.sin a ^ 2 := by
  rw [Real.cos_two_mul, Real.cos_sq']; ring

/-- C205: with jamaly, in no direction do the apparent speeds of the GOOD pairs scatter less than in the direction `θ` returned; in a
direction at the angle `φ` from it their variance exceeds the least one by `sin² φ` times the difference between the largest (at right
angles) and the least one. -/
theorem C205_direction (x : Ext) (hmin : LocalMinimizer x.minimizeScalar) (ts : List (ι × List (Option ℝ))) (pos : List (ι × Vec)) (ref : RefArg ι)
    (method backend : String) (hm : method.toLower = "jamaly") (options : Option Dict) (out : Out ι)
    (hout : (computeCmv x ts pos ref method backend options).1 = .ok out) (h2 : 2 ≤ countFlag .good out.rows) :
    ∃ θ, out.angle = some θ ∧ (∀ t, variance (goodSpeeds out.rows θ) ≤ variance (goodSpeeds out.rows t)) ∧
      ∀ t, variance (goodSpeeds out.rows t) - variance (goodSpeeds out.rows θ) =
        Real.sin (t - θ) ^ 2 * (variance (goodSpeeds out.rows (θ + Real.pi / 2)) - variance (goodSpeeds out.rows θ)) := by
  obtain ⟨s, θ, v40, v60, -, e2, -, -, -, -, e7, -⟩ := C160_jamaly_report x hmin ts pos ref method backend hm options out hout h2
  obtain ⟨P, R, hR, hf⟩ := speed_form out.rows e7
  refine ⟨θ, e2, ?_, ?_⟩
  · intro t
    rw [hf t, hf θ, cos_two, cos_two, sub_self, Real.sin_zero]
    nlinarith [sq_nonneg (Real.sin (t - θ))]
  · intro t
    rw [hf t, hf θ, hf, cos_two, cos_two, cos_two, sub_self, Real.sin_zero, add_sub_cancel_left, Real.sin_pi_div_two]
    ring

private theorem variance_le (l : List ℝ) (hne : l ≠ []) (c B : ℝ) (h : ∀ v ∈ l, |v - c| ≤ B) : variance l ≤ B ^ 2 := by
  have hl : (0 : ℝ) < l.length := by exact_mod_cast List.length_pos_iff.2 hne
  have h1 : variance l = mean (l.map fun v => (v - c) ^ 2) - (mean l - c) ^ 2 := by
    unfold variance
    have key : ∀ (m : ℝ) (l : List ℝ), (l.map fun v => (v - m) ^ 2).sum =
        (l.map fun v => (v - c) ^ 2).sum - 2 * (m - c) * (l.sum - l.length * c) + l.length * (m - c) ^ 2 := by
      intro m l
      induction l with
      | nil => simp
      | cons v l ih =>
        simp only [List.map_cons, List.sum_cons, List.length_cons, ih]
        push_cast
        ring
    have hm : l.sum = l.length * mean l := by unfold mean; field_simp
    have := key (mean l) l
    rw [hm] at this
    unfold mean at this ⊢
    simp only [List.length_map]
    rw [this]
    field_simp
    ring
  have h3 : mean (l.map fun v => (v - c) ^ 2) ≤ B ^ 2 := by
    unfold mean
    rw [List.length_map, div_le_iff₀ hl]
    clear h1 hne hl
    induction l with
    | nil => simp
    | cons v l ih =>
      have h1 := h v (by simp)
      have h2 := ih fun w hw => h w (by simp [hw])
      have h3 : (v - c) ^ 2 ≤ B ^ 2 := by
        rw [← sq_abs]; exact pow_le_pow_left₀ (abs_nonneg _) h1 2
      simp only [List.map_cons, List.sum_cons, List.length_cons]
      push_cast
      linarith
  nlinarith [sq_nonneg (mean l - c)]

private theorem percentile_near {q : ℝ} {l : List ℝ} {v c B : ℝ} (h : IsPercentile q l v) (hB : ∀ w ∈ l, |w - c| ≤ B) : |v - c| ≤ B := by
  obtain ⟨s, h1, -, i, t, a, b, -, t0, t1, ha, hb, rfl⟩ := h
  have ha' := hB a (h1.mem_iff.1 (List.mem_of_getElem? ha))
  have hb' : |b - c| ≤ B := by
    rcases hb with hb | ⟨-, rfl⟩
    · exact hB b (h1.mem_iff.1 (List.mem_of_getElem? hb))
    · exact ha'
  rw [abs_le] at ha' hb' ⊢
  constructor <;> nlinarith

/-- C205: if the delays of the GOOD pairs are those of a motion (`s₀`, `θ₀`) up to errors of at most `ρ` times the delay, the direction
`θ` returned by jamaly satisfies `sin² (θ - θ₀) · (scatter of the pair velocities) ≤ 2 (s₀ ρ)²`; the speed returned differs from
`s₀ cos (θ - θ₀)` by at most `s₀ ρ + M |sin (θ - θ₀)|`, `M` bounding the apparent speeds at right angles to the motion. -/
theorem C205_noise (x : Ext) (hmin : LocalMinimizer x.minimizeScalar) (ts : List (ι × List (Option ℝ))) (pos : List (ι × Vec)) (ref : RefArg ι)
    (method backend : String) (hm : method.toLower = "jamaly") (options : Option Dict) (out : Out ι)
    (hout : (computeCmv x ts pos ref method backend options).1 = .ok out) (h2 : 2 ≤ countFlag .good out.rows)
    (s₀ θ₀ ρ : ℝ) (hs₀ : 0 < s₀)
    (hρ : ∀ r ∈ out.rows, r.2 = .good → ∀ τ, r.1.delay = some τ → |τ - travelTime s₀ θ₀ r.1.vec| ≤ ρ * |τ|) :
    ∃ s θ, out.speed = some s ∧ out.angle = some θ ∧
      Real.sin (θ - θ₀) ^ 2 * (variance (goodSpeeds out.rows 0) + variance (goodSpeeds out.rows (Real.pi / 2))) ≤ 2 * (s₀ * ρ) ^ 2 ∧
      ∀ M, (∀ v ∈ goodSpeeds out.rows (θ₀ + Real.pi / 2), |v| ≤ M) → |s - s₀ * Real.cos (θ - θ₀)| ≤ s₀ * ρ + M * |Real.sin (θ - θ₀)| := by
  obtain ⟨stats, o, -, -, hfin, -⟩ := computeCmv_ok hout
  rw [hm] at hfin
  have hg := jamaly_good x o stats
  rw [← hfin] at hg
  have hg' : ∀ r ∈ out.rows, r.2 = .good → r.1.delay ≠ none := fun r hr h => by
    obtain ⟨d, hd, -⟩ := hg r hr h
    rw [hd]; simp
  have hne : goodMoves out.rows ≠ [] := by
    intro h
    have hlen := goodMoves_length hg'
    rw [h] at hlen
    simp at hlen
    omega
  have hmoves : ∀ p ∈ goodMoves out.rows, p.1 ≠ 0 ∧ |p.1 - travelTime s₀ θ₀ p.2| ≤ ρ * |p.1| := by
    intro p hp
    obtain ⟨r, hr, e⟩ := List.mem_filterMap.1 hp
    split_ifs at e with hgr
    obtain ⟨d, hd, hd0⟩ := hg r hr hgr
    rw [hd] at e
    cases e
    exact ⟨hd0, hρ r hr hgr d hd⟩
  have hspeed : ∀ p ∈ goodMoves out.rows, |apparentSpeed p θ₀ - s₀| ≤ s₀ * ρ := by
    intro p hp
    obtain ⟨h0, h1⟩ := hmoves p hp
    have e : apparentSpeed p θ₀ - s₀ = - (s₀ * (p.1 - travelTime s₀ θ₀ p.2) / p.1) := by
      unfold apparentSpeed travelTime
      field_simp
      ring
    rw [e, abs_neg, abs_div, abs_mul, abs_of_pos hs₀, div_le_iff₀ (abs_pos.2 h0)]
    have := mul_le_mul_of_nonneg_left h1 hs₀.le
    linarith
  obtain ⟨s, θ, v40, v60, e1, e2, e3, -, -, -, e7, -⟩ := C160_jamaly_report x hmin ts pos ref method backend hm options out hout h2
  obtain ⟨P, R, hR, hf⟩ := speed_form out.rows e7
  refine ⟨s, θ, e1, e2, ?_, ?_⟩
  · have hv : variance (goodSpeeds out.rows θ₀) ≤ (s₀ * ρ) ^ 2 := by
      refine variance_le _ (by simpa [goodSpeeds] using hne) s₀ _ ?_
      intro v hv
      obtain ⟨p, hp, rfl⟩ := List.mem_map.1 hv
      exact hspeed p hp
    have hn := variance_nonneg (goodSpeeds out.rows θ)
    rw [hf, sub_self, mul_zero, Real.cos_zero] at hn
    rw [hf θ₀, cos_two, ← neg_sub θ θ₀, Real.sin_neg, neg_sq] at hv
    have hT : variance (goodSpeeds out.rows 0) + variance (goodSpeeds out.rows (Real.pi / 2)) = 2 * P := by
      rw [hf, hf, show 2 * (Real.pi / 2 - θ) = 2 * (0 - θ) + Real.pi by ring, Real.cos_add_pi]
      ring
    rw [hT]
    have h1 : Real.sin (θ - θ₀) ^ 2 ≤ 1 := Real.sin_sq_le_one _
    have h3 := sq_nonneg (Real.sin (θ - θ₀))
    nlinarith
  · intro M hM
    refine percentile_near e3 ?_
    intro w hw
    obtain ⟨p, hp, rfl⟩ := List.mem_map.1 hw
    have hMp := hM _ (List.mem_map.2 ⟨p, hp, rfl⟩)
    have e : apparentSpeed p θ - s₀ * Real.cos (θ - θ₀) =
        Real.cos (θ - θ₀) * (apparentSpeed p θ₀ - s₀) + Real.sin (θ - θ₀) * apparentSpeed p (θ₀ + Real.pi / 2) := by
      unfold apparentSpeed
      rw [Real.cos_add_pi_div_two, Real.sin_add_pi_div_two]
      conv_lhs => rw [show Real.cos θ = Real.cos ((θ - θ₀) + θ₀) by rw [sub_add_cancel], show Real.sin θ = Real.sin ((θ - θ₀) + θ₀) by rw [sub_add_cancel],
        Real.cos_add, Real.sin_add]
      ring
    rw [e]
    refine (abs_add_le _ _).trans ?_
    rw [abs_mul, abs_mul]
    have h1 := Real.abs_cos_le_one (θ - θ₀)
    have h3 := hspeed p hp
    have h4 : |Real.cos (θ - θ₀)| * |apparentSpeed p θ₀ - s₀| ≤ 1 * (s₀ * ρ) := mul_le_mul h1 h3 (abs_nonneg _) (by norm_num)
    have h5 := mul_le_mul_of_nonneg_left hMp (abs_nonneg (Real.sin (θ - θ₀)))
    linarith

/-- The same with jamaly: the delays are 10 percent too long. -/
example (l : List (Option ℝ × Vec) → Vec) (m : (ℝ → Option ℝ) → ℝ) (hmin : LocalMinimizer m) :
    ∃ out s θ, (computeCmv (exExt l m) exTs exPos (.one 0) "jamaly" "xcorr" none).1 = .ok out ∧ out.speed = some s ∧ out.angle = some θ ∧
      Real.sin (θ - Real.pi / 4) ^ 2 * (variance (goodSpeeds out.rows 0) + variance (goodSpeeds out.rows (Real.pi / 2))) ≤
        2 * (10 / 9 * Real.sqrt 2 * 0.1) ^ 2 := by
  obtain ⟨out, h1, h2, h3⟩ := ex_wave l m
  have e1 : "jamaly".toLower = "jamaly" := by decide +kernel
  obtain ⟨s, θ, a1, a2, a3, -⟩ := C205_noise (exExt l m) hmin exTs exPos (.one 0) "jamaly" "xcorr" e1 none out h1 (ex_two h3)
    (10 / 9 * Real.sqrt 2) (Real.pi / 4) 0.1 (by positivity) (by
      intro r hr hgr τ hτ
      have hp := h2 r hr hgr
      unfold PlaneWave at hp
      rw [ex_travel]
      rw [hp] at hτ
      simp only at hτ
      rw [Option.some.inj hτ]
      have : τ - 9 / 10 * τ = 0.1 * τ := by ring
      rw [this, abs_mul, abs_of_nonneg (by norm_num : (0 : ℝ) ≤ 0.1)])
  exact ⟨out, s, θ, h1, a1, a2, a3⟩

end SST.Props.RobustCmv
