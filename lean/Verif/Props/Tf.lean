import Verif.Proofs.TfMore
import Mathlib.Analysis.Real.Pi.Bounds

/-!
# Properties C43-C47, C53, C97-C107: transfer functions (`signalproc.py`)

Specifications: `Spec/Tf.lean`.
-/

namespace SST.Props.Tf
open SST SST.Tf SST.Dft SST.Corr

/-! ## C43 -/

/-- C43: every coherence reported by `averaged_tf` is between 0 and 1. -/
theorem C43_range (o : Opts) (n : ℕ) (ins outs : List (String × List ℝ)) (hi : ∀ p ∈ ins, p.2.length = n) (ho : ∀ p ∈ outs, p.2.length = n)
    (cols : List (String × List Row)) (h : averagedTf o ins outs = .ok cols) :
    ∀ col ∈ cols, ∀ r ∈ col.2, ∀ v, r.coh = some v → 0 ≤ v ∧ v ≤ 1 := by
  obtain ⟨ps, hps, h1, h2, h3, rfl⟩ := averagedTf_ok h
  intro col hcol r hr v hv
  obtain ⟨p, hp, rfl⟩ := List.mem_map.1 hcol
  obtain ⟨a, ha, b, hb, rfl⟩ := pairCols_mem hps p hp
  obtain ⟨k, hk, rfl⟩ := pairTf_mem hr
  apply cohBin_range _ hv
  rw [spectra_length, spectra_length, hi a ha, ho b hb]

/-- C43: with one average the coherence is 1 wherever it is defined. -/
theorem C43_single (o : Opts) (h1 : o.navgs = 1) (a b : String) (x y : List ℝ) (hl : x.length = y.length)
    (cols : List (String × List Row)) (h : averagedTf o [(a, x)] [(b, y)] = .ok cols) :
    ∀ col ∈ cols, ∀ r ∈ col.2, ∀ v, r.coh = some v → v = 1 := by
  obtain ⟨-, h2, h3, rfl⟩ := averagedTf_pair o a b x y h
  rw [h1, Nat.div_one] at *
  intro col hcol r hr v hv
  rw [List.mem_singleton] at hcol
  subst hcol
  obtain ⟨k, hk, rfl⟩ := pairTf_mem hr
  simp only at hv
  set ov := (pyInt (x.length * o.overlap)).toNat with hov
  have hlt : ov < x.length := by omega
  unfold spectra at hv
  rw [← hl, segStarts_one hlt] at hv
  simp only [List.map_cons, List.map_nil] at hv
  unfold cohBin at hv
  split_ifs at hv with h0
  rw [← Option.some.inj hv, div_eq_one_iff_eq h0]
  simp [psd, csd, Complex.normSq_ofReal]
  ring

/-- C43: a scaled copy has coherence 1 at every frequency with power. -/
theorem C43_scaled (o : Opts) (a b : String) (x : List ℝ) (g : ℝ) (hg : g ≠ 0) (cols : List (String × List Row))
    (h : averagedTf o [(a, x)] [(b, x.map fun v => g * v)] = .ok cols) :
    ∀ col ∈ cols, ∀ r ∈ col.2, (r.tf = none ∧ r.coh = none) ∨ (r.tf = some (g : ℂ) ∧ r.coh = some 1) := by
  obtain ⟨-, h2, h3, rfl⟩ := averagedTf_pair o a b x _ h
  intro col hcol r hr
  rw [List.mem_singleton] at hcol
  subst hcol
  obtain ⟨k, hk, rfl⟩ := pairTf_mem hr
  have e : ∀ w d L ov, spectra w d L ov (x.map fun v => g * v) k = (spectra w d L ov x k).map fun z => (g : ℂ) * z := by
    intro w d L ov
    have := spectra_zipLin w d L ov g 0 x x rfl k
    have e1 : List.zipWith (fun u v => g * u + 0 * v) x x = x.map fun v => g * v := by
      rw [List.zipWith_self]; apply List.map_congr_left; intro v _; ring
    rw [e1, List.zipWith_map, List.zipWith_self] at this
    rw [this]; apply List.map_congr_left; intro v _; push_cast; ring
  simp only [e]
  by_cases h0 : psd (psdScale (o.win (x.length / o.navgs)) o.dt (x.length / o.navgs) k)
      (spectra (o.win (x.length / o.navgs)) o.detr (x.length / o.navgs) (pyInt ((x.length / o.navgs : ℕ) * o.overlap)).toNat x k) = 0
  · left
    unfold tfBin cohBin
    rw [if_pos h0, if_pos (by rw [h0, zero_mul])]
    exact ⟨rfl, rfl⟩
  · right
    exact ⟨tfBin_multiple _ _ _ h0, cohBin_multiple _ (by exact_mod_cast hg) _ h0⟩

/-- C43: exchanging the signals does not change the coherence. -/
theorem C43_symmetric (o : Opts) (a b : String) (x y : List ℝ) (hl : x.length = y.length) (c1 c2 : List (String × List Row))
    (h1 : averagedTf o [(a, x)] [(b, y)] = .ok c1) (h2 : averagedTf o [(b, y)] [(a, x)] = .ok c2) :
    c1.map (fun c => c.2.map fun r => (r.f, r.coh)) = c2.map (fun c => c.2.map fun r => (r.f, r.coh)) := by
  obtain ⟨-, -, -, rfl⟩ := averagedTf_pair o a b x y h1
  obtain ⟨-, -, -, rfl⟩ := averagedTf_pair o b a y x h2
  simp only [List.map_cons, List.map_nil, ← hl]
  congr 1
  unfold pairTf
  rw [List.map_map, List.map_map]
  apply List.map_congr_left
  intro k _
  simp only [Function.comp]
  congr 1
  unfold cohBin
  rw [csd_symm _ _ _ (show (spectra (o.win (x.length / o.navgs)) o.detr (x.length / o.navgs) (pyInt ((x.length / o.navgs : ℕ) * o.overlap)).toNat x k).length = _ by
    rw [spectra_length, spectra_length, hl]), Complex.normSq_conj, mul_comm]

example : ∃ cols, averagedTf ⟨1, 1, 0.5, fun L => List.replicate L 1, .none⟩ [("a", [1, 2])] [("b", [3, 5])] = .ok cols := by
  have : pyInt ((2 : ℝ) * 0.5) = 1 := by unfold pyInt; norm_num
  simp [averagedTf, pairCols, this]

/-! ## C44 -/

/-- C44: the transfer function of a signal with itself is 1 wherever it is defined. -/
theorem C44_self (o : Opts) (a b : String) (x : List ℝ) (cols : List (String × List Row))
    (h : averagedTf o [(a, x)] [(b, x)] = .ok cols) :
    ∀ col ∈ cols, ∀ r ∈ col.2, (r.tf = none ∧ r.coh = none) ∨ (r.tf = some 1 ∧ r.coh = some 1) := by
  have hx : x = x.map fun v => 1 * v := by simp
  have := C43_scaled o a b x 1 one_ne_zero cols (by rw [← hx]; exact h)
  simpa using this

/-- C44: the transfer function is linear in the output. -/
theorem C44_linear (o : Opts) (a b : String) (x y z : List ℝ) (hy : y.length = x.length) (hz : z.length = x.length) (c d : ℝ)
    (n0 n1 n2 : String) (r0 r1 r2 : List Row)
    (h1 : averagedTf o [(a, x)] [(b, y)] = .ok [(n1, r1)]) (h2 : averagedTf o [(a, x)] [(b, z)] = .ok [(n2, r2)])
    (h0 : averagedTf o [(a, x)] [(b, List.zipWith (fun u v => c * u + d * v) y z)] = .ok [(n0, r0)]) :
    ∀ (k : ℕ) (p0 p1 p2 : Row), r0[k]? = some p0 → r1[k]? = some p1 → r2[k]? = some p2 →
      (p0.tf = none ∧ p1.tf = none ∧ p2.tf = none) ∨
        ∃ t1 t2, p1.tf = some t1 ∧ p2.tf = some t2 ∧ p0.tf = some (c * t1 + d * t2) := by
  obtain ⟨-, -, -, e1⟩ := averagedTf_pair o _ _ _ _ h1
  obtain ⟨-, -, -, e2⟩ := averagedTf_pair o _ _ _ _ h2
  obtain ⟨-, -, -, e0⟩ := averagedTf_pair o _ _ _ _ h0
  simp only [List.cons.injEq, Prod.mk.injEq, and_true] at e0 e1 e2
  obtain ⟨-, rfl⟩ := e0
  obtain ⟨-, rfl⟩ := e1
  obtain ⟨-, rfl⟩ := e2
  intro k p0 p1 p2 hk0 hk1 hk2
  obtain ⟨-, rfl⟩ := pairTf_getElem hk0
  obtain ⟨-, rfl⟩ := pairTf_getElem hk1
  obtain ⟨-, rfl⟩ := pairTf_getElem hk2
  simp only [spectra_zipLin _ _ _ _ c d y z (hy.trans hz.symm)]
  unfold tfBin
  by_cases hp : psd (psdScale (o.win (x.length / o.navgs)) o.dt (x.length / o.navgs) k)
      (spectra (o.win (x.length / o.navgs)) o.detr (x.length / o.navgs) (pyInt ((x.length / o.navgs : ℕ) * o.overlap)).toNat x k) = 0
  · left; rw [if_pos hp, if_pos hp, if_pos hp]; exact ⟨rfl, rfl, rfl⟩
  · right
    rw [if_neg hp, if_neg hp, if_neg hp]
    refine ⟨_, _, rfl, rfl, ?_⟩
    rw [csd_add _ _ _ _ (by rw [List.length_map, List.length_map, spectra_length, spectra_length, hy, hz]), csd_smul, csd_smul]
    congr 1
    ring

/-- The hypotheses of C44 hold in a concrete case: the records [3, 5] and [1, 0] and the combination 2 [3, 5] + 7 [1, 0]. -/
example : ∀ y ∈ ([[3, 5], [1, 0], List.zipWith (fun u v => 2 * u + 7 * v) [3, 5] [1, 0]] : List (List ℝ)),
    ∃ nm rows, averagedTf ⟨1, 1, 0.5, fun L => List.replicate L 1, .none⟩ [("a", [1, 2])] [("b", y)] = .ok [(nm, rows)] := by
  have : pyInt ((2 : ℝ) * 0.5) = 1 := by unfold pyInt; norm_num
  intro y _
  exact ⟨_, _, by simp [averagedTf, pairCols, this]; exact ⟨rfl, rfl⟩⟩

/-- C44: if in every segment the output spectrum is `z` times the input spectrum, the transfer function
is `z` and the coherence 1; for `z = exp(-2πi f τ)` that is magnitude 1 and the phase of a delay τ. -/
theorem C44_multiple (o : Opts) (a b : String) (x y : List ℝ) (hl : x.length = y.length) (nm : String) (rows : List Row)
    (h : averagedTf o [(a, x)] [(b, y)] = .ok [(nm, rows)]) (k : ℕ) (r : Row) (hr : rows[k]? = some r) (z : ℂ) (hz : z ≠ 0)
    (hs : ∀ s, segSpec (o.win (x.length / o.navgs)) o.detr y (x.length / o.navgs) s k =
      z * segSpec (o.win (x.length / o.navgs)) o.detr x (x.length / o.navgs) s k) :
    r.f = k / ((x.length / o.navgs : ℕ) * o.dt) ∧ ((r.tf = none ∧ r.coh = none) ∨ (r.tf = some z ∧ r.coh = some 1)) := by
  obtain ⟨-, -, -, e⟩ := averagedTf_pair o _ _ _ _ h
  simp only [List.cons.injEq, Prod.mk.injEq, and_true] at e
  obtain ⟨-, rfl⟩ := e
  obtain ⟨-, rfl⟩ := pairTf_getElem hr
  refine ⟨rfl, ?_⟩
  simp only [spectra_multiple hl hs]
  by_cases hp : psd (psdScale (o.win (x.length / o.navgs)) o.dt (x.length / o.navgs) k)
      (spectra (o.win (x.length / o.navgs)) o.detr (x.length / o.navgs) (pyInt ((x.length / o.navgs : ℕ) * o.overlap)).toNat x k) = 0
  · left
    unfold tfBin cohBin
    rw [if_pos hp, if_pos (by rw [hp, zero_mul])]; exact ⟨rfl, rfl⟩
  · right
    exact ⟨tfBin_multiple _ _ _ hp, cohBin_multiple _ hz _ hp⟩

/-- The condition of C44 on the spectra holds in a concrete case: a record and its triple. -/
example (s k : ℕ) : segSpec (List.replicate 2 1) .none [3, 6] 2 s k = 3 * segSpec (List.replicate 2 1) .none [1, 2] 2 s k := by
  have e : ([3, 6] : List ℝ) = [1, 2].map fun v => 3 * v := by norm_num
  have hd : ∀ j : ℕ, ((([3, 6] : List ℝ).drop s).take 2)[j]?.getD 0 = 3 * ((([1, 2] : List ℝ).drop s).take 2)[j]?.getD 0 := by
    intro j
    rw [e, ← List.map_drop, ← List.map_take, List.getElem?_map]
    cases ((([1, 2] : List ℝ).drop s).take 2)[j]? <;> simp
  unfold segSpec
  rw [Finset.mul_sum]
  apply Finset.sum_congr (by simp)
  intro j _
  simp only [detrend]
  rw [hd]
  have hl : ((([3, 6] : List ℝ).drop s).take 2).length = ((([1, 2] : List ℝ).drop s).take 2).length := by simp
  rw [hl]
  push_cast
  ring

/-! ## C46 -/

/-- C46: unwrapping changes each phase by a multiple of 2π, keeps the first one, and leaves steps of at
most half a turn. -/
theorem C46_unwrap (l : List ℝ) : ∃ u : List ℝ, unwrap (l.map some) = u.map some ∧
    List.Forall₂ (fun q v => ∃ k : ℤ, v = q + 2 * Real.pi * k) l u ∧ u.IsChain (fun a b => |b - a| ≤ Real.pi) ∧
    u.head? = l.head? := by
  refine ⟨unwrapR l, unwrap_some l, unwrapR_congr l, unwrapR_chain l, ?_⟩
  cases l <;> rfl

/-- C46: sequences whose steps are at most half a turn are left alone. -/
theorem C46_identity (l : List ℝ) (h : l.IsChain (fun a b => |b - a| ≤ Real.pi)) : unwrap (l.map some) = l.map some := by
  rw [unwrap_some]
  congr 1
  have key : ∀ (p : ℝ) (l : List ℝ), (p :: l).IsChain (fun a b => |b - a| ≤ Real.pi) → unwrapRF p 0 l = l := by
    intro p l
    induction l generalizing p with
    | nil => intro _; rfl
    | cons q qs ih =>
      intro h
      obtain ⟨h1, h2⟩ := List.isChain_cons_cons.1 h
      unfold unwrapRF
      rw [corrStep_small h1, add_zero, add_zero, ih q h2]
  cases l with
  | nil => rfl
  | cons p ps => simp only [unwrapR, key p ps h]

example : unwrap [some 0, some 3, some 1] = [some 0, some 3, some 1] := by
  have := Real.pi_gt_three
  exact C46_identity [0, 3, 1] (by norm_num; exact ⟨by linarith, by linarith⟩)

/-- C46: unwrapping recovers, up to the multiple of 2π of its first value, every phase whose steps are
below half a turn from its wrapped values. -/
theorem C46_recovers (φ p : List ℝ) (h : List.Forall₂ (fun a b => ∃ k : ℤ, b = a + 2 * Real.pi * k) φ p)
    (hs : φ.IsChain (fun a b => |b - a| < Real.pi)) :
    ∃ k : ℤ, unwrap (p.map some) = φ.map fun a => some (a + 2 * Real.pi * k) := by
  cases h with
  | nil => exact ⟨0, rfl⟩
  | @cons a b φ' p' hab hrest =>
    obtain ⟨k, hk⟩ := hab
    refine ⟨k, ?_⟩
    rw [unwrap_some, unwrapR_track (List.Forall₂.cons ⟨k, hk⟩ hrest) hs (d := 2 * Real.pi * k), List.map_map]
    · rfl
    · intro a' b' ha hb
      simp only [List.head?_cons, Option.some.injEq] at ha hb
      rw [← ha, ← hb, hk]

/-- C46: from the first NaN on everything is NaN. -/
theorem C46_nan (pre : List ℝ) (post : List (Option ℝ)) : ∃ u : List ℝ, u.length = pre.length ∧
    unwrap (pre.map some ++ none :: post) = u.map some ++ List.replicate (post.length + 1) none :=
  ⟨unwrapR pre, unwrapR_length pre, unwrap_nan pre post⟩

example : ∃ (φ p : List ℝ), φ = [0, 3, 6] ∧ List.Forall₂ (fun a b => ∃ k : ℤ, b = a + 2 * Real.pi * k) φ p ∧
    φ.IsChain (fun a b => |b - a| < Real.pi) := by
  refine ⟨[0, 3, 6], [0, 3, 6 - 2 * Real.pi], rfl, ?_, ?_⟩
  · exact .cons ⟨0, by simp⟩ (.cons ⟨0, by simp⟩ (.cons ⟨-1, by push_cast; ring⟩ .nil))
  · have := Real.pi_gt_three
    simp only [List.isChain_cons_cons, List.isChain_singleton, and_true]
    constructor <;> rw [abs_of_pos (by norm_num)] <;> linarith

/-! ## C45 -/

/-- C45: the masks returned mark exactly the bins with coherence above and frequency below the limits. -/
theorem C45_mask (cols : List (List Row)) (cohLim freqLim : Option ℝ) (method : String) (ds : List (Option ℝ)) (ix : List (List Bool))
    (h : tfDelay cols cohLim freqLim method = .ok (ds, ix)) :
    List.Forall₂ (List.Forall₂ fun r b => (b = true ↔ Coherent cohLim r ∧ Below freqLim r)) cols ix := by
  classical
  have hix : ix = cols.map (maskOf cohLim freqLim) := by
    unfold tfDelay at h
    split_ifs at h with h1 h2 h3
    · cases cols with
      | nil => cases h
      | cons c cs =>
        cases cs with
        | nil =>
          simp only at h
          cases hd : diffDelay cohLim freqLim c with
          | error e => rw [hd] at h; cases h
          | ok d => rw [hd] at h; exact (Prod.mk.inj (Except.ok.inj h)).2.symm
        | cons => simp only at h; split at h <;> simp_all
    · cases cols with
      | nil => cases h
      | cons c cs =>
        cases cs with
        | nil => exact (Prod.mk.inj (Except.ok.inj h)).2.symm
        | cons => simp only at h; split at h <;> simp_all
    · exact (Prod.mk.inj (Except.ok.inj h)).2.symm
  subst hix
  rw [List.forall₂_map_right_iff, List.forall₂_same]
  intro c _
  unfold maskOf
  rw [List.forall₂_map_right_iff, List.forall₂_same]
  intro r _
  simp [cohOk_iff, freqOk_iff]

/-- C45: method 'multi' returns τ for every column whose bins below the frequency limit have the phase of
a pure delay τ, whatever the coherence mask, provided successive bins are less than half a turn apart
and one positive frequency is usable.  Other columns do not matter. -/
theorem C45_multi (cols : List (List Row)) (cohLim freqLim : Option ℝ) (ds : List (Option ℝ)) (ix : List (List Bool))
    (h : tfDelay cols cohLim freqLim "multi" = .ok (ds, ix)) (k : ℕ) (rows : List Row) (hk : cols[k]? = some rows) (τ : ℝ)
    (hsort : rows.Pairwise fun a b => a.f < b.f) (hf : ∀ r ∈ rows, 0 ≤ r.f)
    (hp : ∀ r ∈ rows, Below freqLim r → PureDelay τ r) (hs : rows.IsChain (SmallStep τ))
    (h0 : ∀ r, rows.head? = some r → |2 * Real.pi * r.f * τ| < Real.pi)
    (hne : ∃ r ∈ rows, Coherent cohLim r ∧ Below freqLim r ∧ 0 < r.f) : ds[k]? = some (some τ) := by
  have hds : ds = cols.map (multiDelay cohLim freqLim) := by
    unfold tfDelay at h
    rw [if_neg (by decide), if_neg (by decide), if_pos rfl] at h
    exact (Prod.mk.inj (Except.ok.inj h)).1.symm
  rw [hds, List.getElem?_map, hk, Option.map_some, multi_pure cohLim freqLim τ rows hsort hf hp hs h0 hne]

open Classical in
/-- C45: method 'fit' returns τ if the usable bins have the phase of a pure delay τ, *successive usable
bins* are less than half a turn apart and one of them has a nonzero frequency. -/
theorem C45_fit (rows sub : List Row) (cohLim freqLim : Option ℝ) (τ : ℝ)
    (hsub : sub = rows.filter fun r => decide (Coherent cohLim r ∧ Below freqLim r))
    (hp : ∀ r ∈ sub, PureDelay τ r) (hs : sub.IsChain (SmallStep τ))
    (h0 : ∀ r, sub.head? = some r → |2 * Real.pi * r.f * τ| < Real.pi) (hne : ∃ r ∈ sub, r.f ≠ 0) :
    ∃ ix, tfDelay [rows] cohLim freqLim "fit" = .ok ([some τ], ix) := by
  refine ⟨[maskOf cohLim freqLim rows], ?_⟩
  unfold tfDelay
  rw [if_neg (by decide), if_pos rfl]
  simp only [fit_pure cohLim freqLim τ rows sub hsub hp hs h0 hne]
  rfl

/-- C45: method 'diff' returns τ if all bins have the phase of a pure delay τ, successive bins are less
than half a turn apart and one bin is usable. -/
theorem C45_diff (rows : List Row) (cohLim freqLim : Option ℝ) (τ : ℝ) (hsort : rows.Pairwise fun a b => a.f < b.f)
    (hlen : 2 ≤ rows.length) (hp : ∀ r ∈ rows, PureDelay τ r) (hs : rows.IsChain (SmallStep τ))
    (h0 : ∀ r, rows.head? = some r → |2 * Real.pi * r.f * τ| < Real.pi)
    (hne : ∃ r ∈ rows, Coherent cohLim r ∧ Below freqLim r) :
    ∃ ix, tfDelay [rows] cohLim freqLim "diff" = .ok ([some τ], ix) := by
  refine ⟨[maskOf cohLim freqLim rows], ?_⟩
  unfold tfDelay
  rw [if_pos rfl]
  simp only [diff_pure cohLim freqLim τ rows hsort hlen hp hs h0 hne]
  rfl

/-- Witness used below: bins at 0, 1 and 2 Hz of a delay of 0.4 s. -/
noncomputable def demo (c1 : ℝ) : List Row :=
  [⟨0, some 1, some 1⟩, ⟨1, some (Complex.exp (-(2 * Real.pi * 1 * 0.4 : ℝ) * Complex.I)), some c1⟩,
    ⟨2, some (Complex.exp (-(2 * Real.pi * 2 * 0.4 : ℝ) * Complex.I)), some 1⟩]

theorem demo_pure (c1 : ℝ) : ∀ r ∈ demo c1, PureDelay 0.4 r := by
  intro r hr
  simp only [demo, List.mem_cons, List.not_mem_nil, or_false] at hr
  rcases hr with rfl | rfl | rfl
  · exact ⟨1, one_pos, by simp⟩
  · exact ⟨1, one_pos, by simp⟩
  · exact ⟨1, one_pos, by simp⟩

theorem demo_steps (c1 : ℝ) : (demo c1).IsChain (SmallStep 0.4) := by
  have := Real.pi_pos
  simp only [demo, List.isChain_cons_cons, List.isChain_singleton, and_true, SmallStep]
  constructor <;> rw [abs_of_pos (by norm_num; positivity)] <;> norm_num <;> linarith

example (c1 : ℝ) : ∃ rows : List Row, (rows.Pairwise fun a b => a.f < b.f) ∧ (∀ r ∈ rows, 0 ≤ r.f) ∧
    (∀ r ∈ rows, Below none r → PureDelay 0.4 r) ∧ rows.IsChain (SmallStep 0.4) ∧
    (∀ r, rows.head? = some r → |2 * Real.pi * r.f * 0.4| < Real.pi) ∧ (∃ r ∈ rows, Coherent (some 0.5) r ∧ Below none r ∧ 0 < r.f) := by
  refine ⟨demo c1, by simp [demo], ?_, fun r hr _ => demo_pure c1 r hr, demo_steps c1, ?_, ?_⟩
  · intro r hr
    simp only [demo, List.mem_cons, List.not_mem_nil, or_false] at hr
    rcases hr with rfl | rfl | rfl <;> norm_num
  · intro r hr
    simp only [demo, List.head?_cons, Option.some.injEq] at hr
    subst hr; simp [Real.pi_pos]
  · refine ⟨_, by simp only [demo, List.mem_cons]; exact Or.inr (Or.inr (Or.inl rfl)), ?_, ?_, by norm_num⟩
    · intro l hl; exact ⟨1, rfl, by rw [← Option.some.inj hl]; norm_num⟩
    · intro l hl; cases hl

/-- C45: 'fit' returns a least-squares delay: no other value fits the unwrapped phases of the usable bins
better. -/
theorem C45_least_squares (rows sub : List Row) (cohLim freqLim : Option ℝ) (u : List ℝ)
    (hsub : open Classical in sub = rows.filter fun r => decide (Coherent cohLim r ∧ Below freqLim r))
    (hu : unwrap (sub.map fun r => r.tf.map Complex.arg) = u.map some) (ix : List (List Bool)) (τ : ℝ)
    (hf : ∃ r ∈ sub, r.f ≠ 0)
    (h : tfDelay [rows] cohLim freqLim "fit" = .ok ([some τ], ix)) (τ' : ℝ) :
    (((sub.map Row.f).zip u).map fun p => (p.2 + 2 * Real.pi * p.1 * τ) ^ 2).sum ≤
      (((sub.map Row.f).zip u).map fun p => (p.2 + 2 * Real.pi * p.1 * τ') ^ 2).sum := by
  classical
  have hfit : fitDelay cohLim freqLim rows = some τ := by
    unfold tfDelay at h
    rw [if_neg (by decide), if_pos rfl] at h
    have := (Prod.mk.inj (Except.ok.inj h)).1
    simpa using this
  unfold fitDelay at hfit
  simp only [freqOk_iff, cohOk_iff] at hfit
  rw [← hsub] at hfit
  have hu' : unwrap (sub.map fun r => angle r.tf) = u.map some := hu
  rw [hu'] at hfit
  have e0 : (u.map some).filterMap id = u := by simp [List.filterMap_map]
  rw [e0] at hfit
  have h1 : ¬ (sub = [] ∨ none ∈ u.map some) := by
    intro h1; rw [if_pos h1] at hfit; cases hfit
  rw [if_neg h1] at hfit
  set P := (sub.map Row.f).zip u with hP
  have hlen : u.length = sub.length := by
    have := congrArg List.length hu'
    rw [unwrap_length, List.length_map, List.length_map] at this
    exact this.symm
  have hB : 0 < (P.map fun p => p.1 ^ 2).sum := by
    obtain ⟨r, hr, hr0⟩ := hf
    have e : P.map (fun p => p.1 ^ 2) = (sub.map Row.f).map fun f => f ^ 2 := by
      have : P.map Prod.fst = sub.map Row.f := by
        rw [hP, List.map_fst_zip]
        simp [hlen]
      rw [← this, List.map_map]; rfl
    rw [e]
    apply sum_pos_of _ (List.mem_map_of_mem (List.mem_map_of_mem hr)) (by positivity)
    intro v hv
    obtain ⟨w, -, rfl⟩ := List.mem_map.1 hv
    exact sq_nonneg w
  rw [if_neg hB.ne'] at hfit
  have hτ := Option.some.inj hfit
  have expand : ∀ t : ℝ, (P.map fun p => (p.2 + 2 * Real.pi * p.1 * t) ^ 2).sum =
      (P.map fun p => p.2 ^ 2).sum + 4 * Real.pi * t * (P.map fun p => p.1 * p.2).sum + (2 * Real.pi * t) ^ 2 * (P.map fun p => p.1 ^ 2).sum := by
    intro t
    clear_value P
    clear hfit hτ hB hP
    induction P with
    | nil => simp
    | cons p P ih => simp only [List.map_cons, List.sum_cons, ih]; ring
  rw [expand, expand]
  set A := (P.map fun p => p.1 * p.2).sum
  set B := (P.map fun p => p.1 ^ 2).sum
  have hpi := Real.pi_pos
  have hA : A = -(2 * Real.pi * B * τ) := by
    rw [← hτ]; field_simp
  rw [hA]
  nlinarith [mul_nonneg hB.le (sq_nonneg (2 * Real.pi * (τ - τ')))]

/-- C45: a circularly delayed record.  For one average, a rectangular window and a record with power at
all bins below the frequency limit, `compute_delays_tf` returns exactly the shift, for both methods and
every shift below half the record. -/
theorem C45_circular (a b : String) (x : List ℝ) (m : ℤ) (dt ov fl : ℝ) (cohLim : Option ℝ) (method : String)
    (hm : method = "multi" ∨ method = "fit") (hdt : 0 < dt) (hov : 0 ≤ ov ∧ ov < 1) (hmx : 2 * |m| < x.length)
    (hcl : ∀ l, cohLim = some l → l < 1) (hfl : 1 / (x.length * dt) < fl) (h2 : 2 ≤ x.length)
    (hpow : ∀ k : ℕ, (k : ℝ) / (x.length * dt) < fl → k ≤ x.length / 2 →
      ∑ j ∈ Finset.range x.length, ((x[j]?.getD 0 : ℝ) : ℂ) * Complex.exp (-2 * Real.pi * Complex.I * ((j * k : ℤ) : ℂ) / (x.length : ℕ)) ≠ 0)
    (det : Detrend) :
    ∃ mask mc, computeDelaysTf ⟨dt, 1, ov, fun L => List.replicate L 1, det⟩ [(a, x)] [(b, roll x m)] cohLim (some fl) method =
      .ok [(some (m * dt), mask, mc)] := by
  classical
  set o : Opts := ⟨dt, 1, ov, fun L => List.replicate L 1, .none⟩ with ho
  set n := x.length with hn
  have hn0 : 0 < n := by omega
  have hnR : (0 : ℝ) < n := by exact_mod_cast hn0
  have hovi : pyInt ((n : ℝ) * ov) < n := by
    unfold pyInt
    rw [if_pos (by have := hov.1; positivity)]
    have : (n : ℝ) * ov < n := by nlinarith [hov.2]
    have h3 := Int.floor_le ((n : ℝ) * ov)
    exact_mod_cast lt_of_le_of_lt h3 this
  set ovn := (pyInt ((n : ℝ) * ov)).toNat with hovn
  have hovn' : ovn < n := by omega
  have havg : averagedTf o [(a, x)] [(b, roll x m)] = .ok [(a ++ "_" ++ b, pairTf o n ovn x (roll x m))] := by
    unfold averagedTf
    simp only [pairCols, List.length_singleton, if_pos, List.zipWith_cons_cons, List.zipWith_nil_left, List.headD_cons,
      Nat.div_one, ho, ← hn]
    rw [if_neg one_ne_zero, if_neg]
    · simp [hovn]
    · push Not; exact ⟨by omega, hovi⟩
  set rows := pairTf o n ovn x (roll x m) with hrows
  -- every bin of the pair below the limit
  have hbin : ∀ r ∈ rows, Below (some fl) r → PureDelay (m * dt) r ∧ r.coh = some 1 := by
    intro r hr hb
    obtain ⟨k, hk, rfl⟩ := pairTf_mem hr
    have hkf : (k : ℝ) / (n * dt) < fl := hb fl rfl
    have hX := hpow k hkf (by omega)
    have eX : spectra (o.win n) o.detr n ovn x k = [∑ j ∈ Finset.range n, ((at0 x j : ℝ) : ℂ) * twiddle n (j * k)] := by
      unfold spectra
      rw [← hn, segStarts_one hovn']
      simp only [List.map_cons, List.map_nil]
      rw [hn, segment_all]
      rw [show o.win x.length = List.replicate x.length 1 from rfl, show o.detr = .none from rfl, spectrum_plain]
    have eY : spectra (o.win n) o.detr n ovn (roll x m) k = (spectra (o.win n) o.detr n ovn x k).map fun v => twiddle n (m * k) * v := by
      rw [eX]
      unfold spectra
      rw [roll_length, ← hn, segStarts_one hovn']
      simp only [List.map_cons, List.map_nil]
      have := segment_all (roll x m)
      rw [roll_length, ← hn] at this
      rw [this]
      have h3 := spectrum_plain (roll x m) k
      rw [roll_length, ← hn] at h3
      rw [show o.win n = List.replicate n 1 from rfl, show o.detr = .none from rfl, h3, hn, dft_roll x m k hn0]
    have hpsd : psd (psdScale (o.win n) o.dt n k) (spectra (o.win n) o.detr n ovn x k) ≠ 0 := by
      rw [eX]
      unfold psd psdScale
      have h4 : ((o.win n).map fun v => v ^ 2).sum = (n : ℝ) := by
        rw [show o.win n = List.replicate n 1 from rfl]; simp
      rw [h4]
      simp only [List.map_cons, List.map_nil, List.sum_cons, List.sum_nil, add_zero, List.length_singleton, Nat.cast_one, div_one]
      have h5 : Complex.normSq (∑ j ∈ Finset.range n, ((at0 x j : ℝ) : ℂ) * twiddle n (j * k)) ≠ 0 := fun h => hX (Complex.normSq_eq_zero.1 h)
      have h6 : (0 : ℝ) < o.dt := hdt
      have h7 : (if k = 0 ∨ 2 * k = n then (1 : ℝ) else 2) ≠ 0 := by split_ifs <;> norm_num
      positivity
    have htw : twiddle n (m * k) ≠ 0 := by
      have := norm_twiddle n (m * k)
      intro h; rw [h] at this; simp at this
    refine ⟨⟨1, one_pos, ?_⟩, ?_⟩
    · show tfBin _ _ _ = _
      rw [eY, tfBin_multiple _ _ _ hpsd, Complex.ofReal_one, one_mul]
      congr 1
      unfold twiddle
      congr 1
      push_cast
      have e1 : (n : ℂ) ≠ 0 := by exact_mod_cast hn0.ne'
      have e2 : (dt : ℂ) ≠ 0 := by exact_mod_cast hdt.ne'
      show _ = -(2 * (Real.pi : ℂ) * (k / (n * (dt : ℂ))) * (m * dt)) * Complex.I
      field_simp
    · show cohBin _ _ _ = _
      rw [eY, cohBin_multiple _ htw _ hpsd]
  have hsort : rows.Pairwise fun a b => a.f < b.f := pairTf_sorted o hdt hn0 ovn _ _
  have hstep : rows.IsChain (SmallStep (m * dt)) := by
    apply pairTf_chain
    intro k ra rb h1 h2
    unfold SmallStep
    rw [h1, h2, show o.dt = dt from rfl]
    have e : 2 * Real.pi * (((k : ℝ) + 1) / (n * dt) - k / (n * dt)) * (m * dt) = Real.pi * (2 * m / n) := by
      field_simp; ring
    rw [e, abs_mul, abs_of_pos Real.pi_pos, abs_div, abs_of_pos hnR]
    have : |2 * (m : ℝ)| < n := by
      rw [abs_mul, abs_of_pos (by norm_num : (0 : ℝ) < 2)]
      exact_mod_cast hmx
    have h8 : |2 * (m : ℝ)| / n < 1 := by rw [div_lt_one hnR]; exact this
    nlinarith [Real.pi_pos]
  have hhead : ∀ r, rows.head? = some r → |2 * Real.pi * r.f * (m * dt)| < Real.pi := by
    intro r hr
    rw [List.head?_eq_getElem?] at hr
    obtain ⟨-, rfl⟩ := pairTf_getElem hr
    simp [Real.pi_pos]
  have h1mem : ∃ r ∈ rows, Coherent cohLim r ∧ Below (some fl) r ∧ 0 < r.f := by
    have hk : 1 < n / 2 + 1 := by omega
    have hg := pairTf_get o n ovn x (roll x m) hk
    refine ⟨_, List.mem_of_getElem? hg, ?_, ?_, ?_⟩
    · have := (hbin _ (List.mem_of_getElem? hg) (fun l hl => by
        rw [← Option.some.inj hl]; show ((1 : ℕ) : ℝ) / (n * dt) < fl; rw [Nat.cast_one]; exact hfl)).2
      intro l hl
      exact ⟨1, this, hcl l hl⟩
    · intro l hl; rw [← Option.some.inj hl]; show ((1 : ℕ) : ℝ) / (n * dt) < fl; rw [Nat.cast_one]; exact hfl
    · show (0 : ℝ) < ((1 : ℕ) : ℝ) / (n * dt); positivity
  have hmulti : multiDelay cohLim (some fl) rows = some (m * dt) := by
    apply multi_pure cohLim (some fl) (m * dt) rows hsort _ (fun r hr hb => (hbin r hr hb).1) hstep hhead h1mem
    intro r hr
    obtain ⟨k, -, rfl⟩ := pairTf_mem hr
    show (0 : ℝ) ≤ (k : ℝ) / (n * dt); positivity
  have hfit : fitDelay cohLim (some fl) rows = some (m * dt) := by
    have hsub : rows.filter (fun r => decide (Coherent cohLim r ∧ Below (some fl) r)) = rows.filter fun r => decide (Below (some fl) r) := by
      apply List.filter_congr
      intro r hr
      by_cases hb : Below (some fl) r
      · have : Coherent cohLim r := fun l hl => ⟨1, (hbin r hr hb).2, hcl l hl⟩
        simp [hb, this]
      · simp [hb]
    have hpre := below_prefix (some fl) rows hsort (fun r => decide (Below (some fl) r)) (by simp)
    apply fit_pure cohLim (some fl) (m * dt) rows _ rfl
    · intro r hr
      rw [List.mem_filter] at hr
      exact (hbin r hr.1 (of_decide_eq_true hr.2).2).1
    · rw [hsub]; exact List.IsChain.prefix hstep hpre
    · rw [hsub]
      intro r hr
      apply hhead r
      obtain ⟨t, ht⟩ := hpre
      rw [← ht]
      cases hc : rows.filter (fun r => decide (Below (some fl) r)) with
      | nil => rw [hc] at hr; simp at hr
      | cons c cs => rw [hc] at hr; simpa using hr
    · obtain ⟨r, hr, h1, h2, h3⟩ := h1mem
      exact ⟨r, by rw [List.mem_filter]; exact ⟨hr, decide_eq_true ⟨h1, h2⟩⟩, h3.ne'⟩
  refine ⟨maskOf cohLim (some fl) rows, meanCoh fl rows, ?_⟩
  unfold computeDelaysTf
  rw [if_neg (by simp)]
  rw [show ({ (⟨dt, 1, ov, fun L => List.replicate L 1, det⟩ : Opts) with detr := Detrend.none }) = o from rfl, havg]
  simp only
  rcases hm with rfl | rfl
  · rw [if_neg (by simp), if_neg (by simp)]
    simp [hmulti]
  · rw [if_neg (by simp), if_neg (by simp)]
    simp [hfit]

/-! ## C47 -/

/-- C47: applying a delay keeps magnitudes and turns each phase by -2π f τ. -/
theorem C47_modulus (tf : List (ℝ × ℂ)) (τ : ℝ) :
    applyDelay tf τ = tf.map (fun p => p.2 * Complex.exp (-(2 * Real.pi * p.1 * τ : ℝ) * Complex.I)) ∧
      (applyDelay tf τ).map (fun z => ‖z‖) = tf.map fun p => ‖p.2‖ := by
  have e : applyDelay tf τ = tf.map (fun p => p.2 * Complex.exp (-(2 * Real.pi * p.1 * τ : ℝ) * Complex.I)) := by
    unfold applyDelay
    apply List.map_congr_left
    intro p _
    congr 2
    push_cast; ring
  refine ⟨e, ?_⟩
  rw [e, List.map_map]
  apply List.map_congr_left
  intro p _
  simp only [Function.comp, norm_mul]
  have : Complex.exp (-((2 * Real.pi * p.1 * τ : ℝ) : ℂ) * Complex.I) = Complex.exp (((-(2 * Real.pi * p.1 * τ) : ℝ) : ℂ) * Complex.I) := by
    congr 1; push_cast; ring
  rw [this, Complex.norm_exp_ofReal_mul_I, mul_one]

/-- C47: delays add; zero delay is the identity; the opposite delay undoes a delay. -/
theorem C47_group (tf : List (ℝ × ℂ)) (σ τ : ℝ) :
    applyDelay ((tf.map Prod.fst).zip (applyDelay tf σ)) τ = applyDelay tf (σ + τ) ∧
      applyDelay tf 0 = tf.map Prod.snd ∧ applyDelay ((tf.map Prod.fst).zip (applyDelay tf σ)) (-σ) = tf.map Prod.snd := by
  have h1 : ∀ τ, applyDelay ((tf.map Prod.fst).zip (applyDelay tf σ)) τ = applyDelay tf (σ + τ) := by
    intro τ
    unfold applyDelay
    rw [zip_map_map, List.map_map]
    apply List.map_congr_left
    intro p _
    simp only [Function.comp]
    rw [mul_assoc, ← Complex.exp_add]
    congr 2
    push_cast; ring
  have h2 : applyDelay tf 0 = tf.map Prod.snd := by
    unfold applyDelay
    apply List.map_congr_left
    intro p _; simp
  exact ⟨h1 τ, h2, by rw [h1, add_neg_cancel, h2]⟩

/-- C47: applying a delay to the unity transfer function and estimating the delay returns it: method
'multi' on the bins produced. -/
theorem C47_roundtrip (fs : List ℝ) (τ : ℝ) (hs : fs.Pairwise (· < ·)) (h0 : fs.head? = some 0)
    (hstep : fs.IsChain fun a b => |2 * Real.pi * (b - a) * τ| < Real.pi) (hne : ∃ f ∈ fs, f ≠ 0) :
    ∃ ix, tfDelay [List.zipWith (fun f z => ⟨f, some z, some 1⟩) fs (applyDelay (fs.map fun f => (f, 1)) τ)] (some 0.5) none "multi" =
      .ok ([some τ], ix) := by
  set rows : List Row := List.zipWith (fun f z => ⟨f, some z, some 1⟩) fs (applyDelay (fs.map fun f => (f, 1)) τ) with hrows
  have hr : rows = fs.map fun f => (⟨f, some (1 * Complex.exp (-(2 * Real.pi * f * τ : ℝ) * Complex.I)), some 1⟩ : Row) := by
    rw [hrows, (C47_modulus _ τ).1, List.map_map, List.zipWith_map_right, List.zipWith_self]
    rfl
  have hpos : ∀ f ∈ fs, 0 ≤ f := by
    cases fs with
    | nil => simp
    | cons g gs =>
      simp only [List.head?_cons, Option.some.injEq] at h0
      subst h0
      intro f hf
      rcases List.mem_cons.1 hf with rfl | hf
      · exact le_rfl
      · exact ((List.pairwise_cons.1 hs).1 f hf).le
  refine ⟨[maskOf (some 0.5) none rows], ?_⟩
  unfold tfDelay
  rw [if_neg (by decide), if_neg (by decide), if_pos rfl]
  simp only [List.map_cons, List.map_nil]
  rw [multi_pure (some 0.5) none τ rows]
  · rw [hr, List.pairwise_map]; exact hs
  · rw [hr]; intro r h; obtain ⟨f, hf, rfl⟩ := List.mem_map.1 h; exact hpos f hf
  · rw [hr]; intro r h _; obtain ⟨f, hf, rfl⟩ := List.mem_map.1 h; exact ⟨1, one_pos, by simp⟩
  · rw [hr, List.isChain_map]; exact hstep
  · rw [hr, List.head?_map, h0]
    intro r h
    simp only [Option.map_some, Option.some.injEq] at h
    subst h
    simp [Real.pi_pos]
  · obtain ⟨f, hf, hf0⟩ := hne
    refine ⟨_, by rw [hr]; exact List.mem_map_of_mem hf, ?_, ?_, lt_of_le_of_ne (hpos f hf) (Ne.symm hf0)⟩
    · intro l hl; exact ⟨1, rfl, by rw [← Option.some.inj hl]; norm_num⟩
    · intro l hl; cases hl

/-- The hypotheses of C47 hold in a concrete case: frequencies 0, 1, 2 Hz and a delay of 0.4 s. -/
example : ([0, 1, 2] : List ℝ).Pairwise (· < ·) ∧ ([0, 1, 2] : List ℝ).head? = some 0 ∧
    (([0, 1, 2] : List ℝ).IsChain fun a b => |2 * Real.pi * (b - a) * 0.4| < Real.pi) ∧ ∃ f ∈ ([0, 1, 2] : List ℝ), f ≠ 0 := by
  have := Real.pi_pos
  refine ⟨by norm_num, rfl, ?_, ⟨1, by simp, by norm_num⟩⟩
  simp only [List.isChain_cons_cons, List.isChain_singleton, and_true]
  constructor <;> rw [abs_of_pos (by norm_num; positivity)] <;> norm_num <;> linarith

/-! ## C53 -/

theorem phase_list (s : List (ℝ × ℂ)) :
    (s.map Prod.fst).zip ((unwrap (s.map fun p => some (Complex.arg p.2))).filterMap id) =
      (s.map Prod.fst).zip (unwrapR (s.map fun p => Complex.arg p.2)) := by
  have : (s.map fun p => some (Complex.arg p.2)) = (s.map fun p => Complex.arg p.2).map some := by simp
  rw [this, unwrap_some]
  simp [List.filterMap_map]

theorem phase_sorted {s : List (ℝ × ℂ)} (hs : s.Pairwise fun a b => a.1 < b.1) (l : List ℝ) (hl : l.length = s.length) :
    ((s.map Prod.fst).zip l).Pairwise fun a b => a.1 < b.1 := by
  rw [← List.pairwise_map (f := Prod.fst) (R := (· < ·)), List.map_fst_zip (by simp [hl]), List.pairwise_map]
  exact hs

/-- C53: the interpolated transfer function agrees with the given one at its own frequencies. -/
theorem C53_exact (tf ps : List (ℝ × ℂ)) (hd : (tf.map Prod.fst).Nodup) (hl : 2 ≤ tf.length) (hps : ∀ p ∈ ps, p ∈ tf) :
    interpTf (ps.map Prod.fst) tf = .ok (ps.map Prod.snd) := by
  unfold interpTf
  simp only
  set s := sortF tf with hs
  have hperm := sortF_perm tf
  have hstrict := sortF_strict tf hd
  rw [← hs] at hperm hstrict
  have hlen : s.length = tf.length := hperm.length_eq
  rw [phase_list]
  set u := unwrapR (s.map fun p => Complex.arg p.2) with hu
  have hul : u.length = s.length := by rw [hu, unwrapR_length, List.length_map]
  have hcongr := unwrapR_congr (s.map fun p => Complex.arg p.2)
  rw [← hu] at hcongr
  rw [List.mapM_map]
  have := mapM_ok (fun p : ℝ × ℂ => polarAt (s.map fun p => (p.1, ‖p.2‖)) ((s.map Prod.fst).zip u) p.1) Prod.snd ps ?_
  · exact this
  · intro p hp
    have hps' : p ∈ s := hperm.mem_iff.2 (hps p hp)
    obtain ⟨i, hi, hpi⟩ := List.mem_iff_getElem.1 hps'
    unfold polarAt
    have e1 : interp1 (s.map fun p => (p.1, ‖p.2‖)) p.1 = .ok ‖p.2‖ := by
      have := interp1_node (s.map fun p => (p.1, ‖p.2‖)) (by rw [List.pairwise_map]; exact hstrict) (by simp; omega)
        (p := (p.1, ‖p.2‖)) (List.mem_map.2 ⟨p, hps', rfl⟩)
      exact this
    have e2 : interp1 ((s.map Prod.fst).zip u) p.1 = .ok (u[i]'(by omega)) := by
      have hm : (p.1, u[i]'(by omega)) ∈ (s.map Prod.fst).zip u := by
        rw [List.mem_iff_getElem]
        refine ⟨i, by simp [hul, hi], ?_⟩
        rw [List.getElem_zip, List.getElem_map, hpi]
      exact interp1_node _ (phase_sorted hstrict u hul) (by simp [hul]; omega) hm
    rw [e1, e2]
    rw [List.forall₂_iff_get] at hcongr
    obtain ⟨k, hk⟩ := hcongr.2 i (by simpa using hi) (by omega)
    simp only [List.get_eq_getElem, List.getElem_map, hpi] at hk
    show Except.ok _ = Except.ok _
    congr 1
    rw [hk]
    have : Complex.exp (Complex.I * ((Complex.arg p.2 + 2 * Real.pi * k : ℝ) : ℂ)) = Complex.exp (Complex.arg p.2 * Complex.I) := by
      rw [Complex.exp_eq_exp_iff_exists_int]
      exact ⟨k, by push_cast; ring⟩
    beta_reduce
    rw [this, Complex.norm_mul_exp_arg_mul_I]

example : interpTf [1, 2] [((2 : ℝ), (1 : ℂ)), (1, 3), (0, Complex.I)] = .ok [3, 1] :=
  C53_exact [((2 : ℝ), (1 : ℂ)), (1, 3), (0, Complex.I)] [(1, 3), (2, 1)] (by simp) (by simp) (by simp)

/-- C53: inside the range of the given frequencies the magnitude is the linear interpolation between two
neighbouring samples. -/
theorem C53_magnitude (tf : List (ℝ × ℂ)) (hd : (tf.map Prod.fst).Nodup) (newFreq : List ℝ) (out : List ℂ)
    (h : interpTf newFreq tf = .ok out) :
    List.Forall₂ (fun f z => ∃ a ∈ tf, ∃ b ∈ tf, a.1 < b.1 ∧ a.1 ≤ f ∧ f ≤ b.1 ∧ (∀ p ∈ tf, ¬ (a.1 < p.1 ∧ p.1 < b.1)) ∧
      ‖z‖ = ‖a.2‖ + (‖b.2‖ - ‖a.2‖) * ((f - a.1) / (b.1 - a.1)) ∧ min ‖a.2‖ ‖b.2‖ ≤ ‖z‖ ∧ ‖z‖ ≤ max ‖a.2‖ ‖b.2‖) newFreq out := by
  unfold interpTf at h
  simp only at h
  set s := sortF tf with hs
  have hperm := sortF_perm tf
  have hstrict := sortF_strict tf hd
  rw [← hs] at hperm hstrict
  set ph := (s.map Prod.fst).zip ((unwrap (s.map fun p => some (Complex.arg p.2))).filterMap id) with hph
  clear_value ph
  induction newFreq generalizing out with
  | nil =>
    have := Except.ok.inj h
    subst this; exact .nil
  | cons f fs ih =>
    rw [List.mapM_cons] at h
    cases hz : polarAt (s.map fun p => (p.1, ‖p.2‖)) ph f with
    | error e => rw [hz] at h; cases h
    | ok z =>
      rw [hz] at h
      cases hr : fs.mapM (polarAt (s.map fun p => (p.1, ‖p.2‖)) ph) with
      | error e => rw [hr] at h; cases h
      | ok zs =>
        rw [hr] at h
        have h' : z :: zs = out := Except.ok.inj h
        subst h'
        refine .cons ?_ (ih zs hr)
        unfold polarAt at hz
        cases hm : interp1 (s.map fun p => (p.1, ‖p.2‖)) f with
        | error e => rw [hm] at hz; cases hz
        | ok m =>
          rw [hm] at hz
          cases hp : interp1 ph f with
          | error e => rw [hp] at hz; cases hz
          | ok φ =>
            rw [hp] at hz
            have hz' : (m : ℂ) * Complex.exp (Complex.I * (φ : ℂ)) = z := Except.ok.inj hz
            -- the frequency lies in the range
            have hsm : (s.map fun p : ℝ × ℂ => (p.1, ‖p.2‖)).Pairwise fun a b => a.1 < b.1 := by rw [List.pairwise_map]; exact hstrict
            have hr1 : ∃ p ∈ s.map fun p : ℝ × ℂ => (p.1, ‖p.2‖), p.1 ≤ f := by
              by_contra hc; push Not at hc
              rw [interp1_error _ _ (Or.inl hc)] at hm; cases hm
            have hr2 : ∃ p ∈ s.map fun p : ℝ × ℂ => (p.1, ‖p.2‖), f ≤ p.1 := by
              by_contra hc; push Not at hc
              rw [interp1_error _ _ (Or.inr hc)] at hm; cases hm
            have hlen : 2 ≤ (s.map fun p : ℝ × ℂ => (p.1, ‖p.2‖)).length := by
              cases hc : s.map (fun p : ℝ × ℂ => (p.1, ‖p.2‖)) with
              | nil => rw [hc] at hm; cases hm
              | cons c cs => cases cs with
                | nil => rw [hc] at hm; cases hm
                | cons => simp
            obtain ⟨pre, a', b', post, he, ha, hb⟩ := interp1_ok _ f hsm hlen hr1 hr2
            rw [interp1_between _ hsm he ha hb] at hm
            have hm' := Except.ok.inj hm
            -- pull the decomposition back to `s`
            obtain ⟨pre0, rest0, hs0, -, h2⟩ := List.map_eq_append_iff.1 he
            obtain ⟨a, rest1, hs1, rfl, h3⟩ := List.map_eq_cons_iff.1 h2
            obtain ⟨b, post0, hs2, rfl, -⟩ := List.map_eq_cons_iff.1 h3
            subst hs2 hs1
            rw [hs0] at hstrict
            have hab : a.1 < b.1 := by
              have := (List.pairwise_append.1 hstrict).2.1
              exact (List.pairwise_cons.1 this).1 b (by simp)
            have hmemS : ∀ p, p ∈ tf ↔ p ∈ pre0 ++ a :: b :: post0 := fun p => by rw [← hs0]; exact hperm.mem_iff.symm
            simp only at ha hb hm'
            have hd' : 0 < b.1 - a.1 := by linarith
            set t := (f - a.1) / (b.1 - a.1) with ht
            have t0 : 0 ≤ t := div_nonneg (by linarith) hd'.le
            have t1 : t ≤ 1 := by rw [ht, div_le_one hd']; linarith
            have na := norm_nonneg a.2
            have nb := norm_nonneg b.2
            have hm0 : 0 ≤ m := by rw [← hm']; nlinarith
            have hzn : ‖z‖ = ‖a.2‖ + (‖b.2‖ - ‖a.2‖) * t := by
              rw [← hz', norm_mul, mul_comm Complex.I, Complex.norm_exp_ofReal_mul_I, mul_one, Complex.norm_real, Real.norm_of_nonneg hm0, hm']
            refine ⟨a, (hmemS a).2 (by simp), b, (hmemS b).2 (by simp), hab, ha, hb, ?_, hzn, ?_, ?_⟩
            · intro p hp hc
              rw [hmemS] at hp
              have hst := List.pairwise_append.1 hstrict
              rcases List.mem_append.1 hp with hp | hp
              · have := hst.2.2 p hp a (by simp); linarith
              · rcases List.mem_cons.1 hp with rfl | hp
                · linarith [hc.1]
                · rcases List.mem_cons.1 hp with rfl | hp
                  · linarith [hc.2]
                  · have := (List.pairwise_cons.1 (List.pairwise_cons.1 hst.2.1).2).1 p hp; linarith [hc.2]
            · rw [hzn]
              rcases le_total ‖a.2‖ ‖b.2‖ with hh | hh
              · rw [min_eq_left hh]; nlinarith
              · rw [min_eq_right hh]; nlinarith
            · rw [hzn]
              rcases le_total ‖a.2‖ ‖b.2‖ with hh | hh
              · rw [max_eq_right hh]; nlinarith
              · rw [max_eq_left hh]; nlinarith

/-- C53: `ValueError` exactly when some requested frequency lies outside the given range. -/
theorem C53_range (tf : List (ℝ × ℂ)) (hd : (tf.map Prod.fst).Nodup) (hl : 2 ≤ tf.length) (newFreq : List ℝ) :
    ((∃ f ∈ newFreq, (∀ p ∈ tf, f < p.1) ∨ (∀ p ∈ tf, p.1 < f)) → Raises (interpTf newFreq tf) .valueError) ∧
    ((∀ f ∈ newFreq, (∃ p ∈ tf, p.1 ≤ f) ∧ (∃ p ∈ tf, f ≤ p.1)) → ∃ out, interpTf newFreq tf = .ok out) := by
  unfold interpTf Raises
  simp only
  set s := sortF tf with hs
  have hperm := sortF_perm tf
  have hstrict := sortF_strict tf hd
  rw [← hs] at hperm hstrict
  rw [phase_list]
  set u := unwrapR (s.map fun p => Complex.arg p.2) with hu
  have hul : u.length = s.length := by rw [hu, unwrapR_length, List.length_map]
  have hfst : ((s.map Prod.fst).zip u).map Prod.fst = s.map Prod.fst := List.map_fst_zip (by simp [hul])
  have hlen := hperm.length_eq
  have hsm : (s.map fun p : ℝ × ℂ => (p.1, ‖p.2‖)).Pairwise fun a b => a.1 < b.1 := by rw [List.pairwise_map]; exact hstrict
  have hsp := phase_sorted hstrict u hul
  have hin : ∀ f, (∃ p ∈ tf, p.1 ≤ f) ∧ (∃ p ∈ tf, f ≤ p.1) → ∃ z, polarAt (s.map fun p => (p.1, ‖p.2‖)) ((s.map Prod.fst).zip u) f = .ok z := by
    rintro f ⟨⟨p, hp, hp'⟩, ⟨q, hq, hq'⟩⟩
    have hp2 := hperm.mem_iff.2 hp
    have hq2 := hperm.mem_iff.2 hq
    obtain ⟨pre, a, b, post, he, ha, hb⟩ := interp1_ok _ f hsm (by simp; omega) ⟨_, List.mem_map_of_mem hp2, hp'⟩ ⟨_, List.mem_map_of_mem hq2, hq'⟩
    have hp3 : ∃ r ∈ (s.map Prod.fst).zip u, r.1 ≤ f := by
      have : p.1 ∈ ((s.map Prod.fst).zip u).map Prod.fst := by rw [hfst]; exact List.mem_map_of_mem hp2
      obtain ⟨r, hr, hr'⟩ := List.mem_map.1 this
      exact ⟨r, hr, by rw [hr']; exact hp'⟩
    have hq3 : ∃ r ∈ (s.map Prod.fst).zip u, f ≤ r.1 := by
      have : q.1 ∈ ((s.map Prod.fst).zip u).map Prod.fst := by rw [hfst]; exact List.mem_map_of_mem hq2
      obtain ⟨r, hr, hr'⟩ := List.mem_map.1 this
      exact ⟨r, hr, by rw [hr']; exact hq'⟩
    obtain ⟨pre', a', b', post', he', ha', hb'⟩ := interp1_ok _ f hsp (by simp [hul]; omega) hp3 hq3
    unfold polarAt
    rw [interp1_between _ hsm he ha hb, interp1_between _ hsp he' ha' hb']
    exact ⟨_, rfl⟩
  have hout : ∀ f, ¬ ((∃ p ∈ tf, p.1 ≤ f) ∧ (∃ p ∈ tf, f ≤ p.1)) →
      polarAt (s.map fun p => (p.1, ‖p.2‖)) ((s.map Prod.fst).zip u) f = .error .valueError := by
    intro f hf
    have : (∀ p ∈ s.map fun p : ℝ × ℂ => (p.1, ‖p.2‖), f < p.1) ∨ (∀ p ∈ s.map fun p : ℝ × ℂ => (p.1, ‖p.2‖), p.1 < f) := by
      rw [not_and_or] at hf
      rcases hf with hf | hf
      · left; push Not at hf
        intro p hp; obtain ⟨q, hq, rfl⟩ := List.mem_map.1 hp; exact hf q (hperm.mem_iff.1 hq)
      · right; push Not at hf
        intro p hp; obtain ⟨q, hq, rfl⟩ := List.mem_map.1 hp; exact hf q (hperm.mem_iff.1 hq)
    unfold polarAt
    rw [interp1_error _ _ this]; rfl
  constructor
  · intro h
    induction newFreq with
    | nil => simp at h
    | cons f fs ih =>
      rw [List.mapM_cons]
      by_cases hf : (∃ p ∈ tf, p.1 ≤ f) ∧ (∃ p ∈ tf, f ≤ p.1)
      · obtain ⟨z, hz⟩ := hin f hf
        rw [hz]
        have h' : ∃ g ∈ fs, (∀ p ∈ tf, g < p.1) ∨ (∀ p ∈ tf, p.1 < g) := by
          obtain ⟨g, hg, hg'⟩ := h
          rcases List.mem_cons.1 hg with rfl | hg
          · exfalso
            obtain ⟨⟨p, hp, hp'⟩, ⟨q, hq, hq'⟩⟩ := hf
            rcases hg' with hg' | hg'
            · linarith [hg' p hp]
            · linarith [hg' q hq]
          · exact ⟨g, hg, hg'⟩
        show ((do let b ← fs.mapM _; pure (z :: b)) : Except PyErr (List ℂ)) = _
        rw [ih h']; rfl
      · rw [hout f hf]; rfl
  · intro h
    induction newFreq with
    | nil => exact ⟨[], rfl⟩
    | cons f fs ih =>
      rw [List.mapM_cons]
      obtain ⟨z, hz⟩ := hin f (h f (by simp))
      obtain ⟨zs, hzs⟩ := ih (fun g hg => h g (by simp [hg]))
      rw [hz]
      show ∃ out, ((do let b ← fs.mapM _; pure (z :: b)) : Except PyErr (List ℂ)) = Except.ok out
      rw [hzs]; exact ⟨_, rfl⟩

/-- C53: the order of the rows of the given transfer function does not matter. -/
theorem C53_order (tf tf' : List (ℝ × ℂ)) (hp : tf.Perm tf') (hd : (tf.map Prod.fst).Nodup) (newFreq : List ℝ) :
    interpTf newFreq tf = interpTf newFreq tf' := by
  unfold interpTf
  rw [sortF_congr hp hd]

example (newFreq : List ℝ) : interpTf newFreq [((2 : ℝ), (1 : ℂ)), (1, 3)] = interpTf newFreq [(1, 3), (2, 1)] :=
  C53_order _ _ (List.Perm.swap _ _ _) (by simp) newFreq

example : ([((2 : ℝ), (1 : ℂ)), (1, 3)].map Prod.fst).Nodup := by simp

/-- One segment of two samples. -/
theorem tiny_tf (y : List ℝ) : ∃ nm rows, averagedTf ⟨1, 1, 0.5, fun L => List.replicate L 1, .none⟩ [("a", [1, 2])] [("b", y)] = .ok [(nm, rows)] := by
  have : pyInt ((2 : ℝ) * 0.5) = 1 := by unfold pyInt; norm_num
  exact ⟨_, _, by simp [averagedTf, pairCols, this]; exact ⟨rfl, rfl⟩⟩

/-- The hypotheses of C43 and C44 hold in a concrete case. -/
example : ∃ nm rows, averagedTf ⟨1, 1, 0.5, fun L => List.replicate L 1, .none⟩ [("a", [1, 2])] [("b", [3, 5])] = .ok [(nm, rows)] ∧
    (∀ r ∈ rows, ∀ v, r.coh = some v → v = 1 ∧ 0 ≤ v ∧ v ≤ 1) := by
  obtain ⟨nm, rows, h⟩ := tiny_tf [3, 5]
  exact ⟨nm, rows, h, fun r hr v hv => ⟨C43_single _ rfl "a" "b" [1, 2] [3, 5] rfl _ h (nm, rows) (by simp) r hr v hv,
    C43_range _ 2 _ _ (by simp) (by simp) _ h (nm, rows) (by simp) r hr v hv⟩⟩

example : ∃ nm rows, averagedTf ⟨1, 1, 0.5, fun L => List.replicate L 1, .none⟩ [("a", [1, 2])] [("b", [3, 6])] = .ok [(nm, rows)] ∧
    ∀ r ∈ rows, (r.tf = none ∧ r.coh = none) ∨ (r.tf = some 3 ∧ r.coh = some 1) := by
  obtain ⟨nm, rows, h⟩ := tiny_tf [3, 6]
  refine ⟨nm, rows, h, fun r hr => ?_⟩
  have := C43_scaled _ "a" "b" [1, 2] 3 (by norm_num) _ (by convert h using 3; norm_num) (nm, rows) (by simp) r hr
  simpa using this

example : ∃ nm rows, averagedTf ⟨1, 1, 0.5, fun L => List.replicate L 1, .none⟩ [("a", [1, 2])] [("b", [1, 2])] = .ok [(nm, rows)] ∧
    ∀ r ∈ rows, (r.tf = none ∧ r.coh = none) ∨ (r.tf = some 1 ∧ r.coh = some 1) := by
  obtain ⟨nm, rows, h⟩ := tiny_tf [1, 2]
  exact ⟨nm, rows, h, C44_self _ "a" "b" [1, 2] _ h (nm, rows) (by simp)⟩

example : ∃ n0 n1 n2 r0 r1 r2, averagedTf ⟨1, 1, 0.5, fun L => List.replicate L 1, .none⟩ [("a", [1, 2])] [("b", [3, 5])] = .ok [(n1, r1)] ∧
    averagedTf ⟨1, 1, 0.5, fun L => List.replicate L 1, .none⟩ [("a", [1, 2])] [("b", [1, 0])] = .ok [(n2, r2)] ∧
    averagedTf ⟨1, 1, 0.5, fun L => List.replicate L 1, .none⟩ [("a", [1, 2])] [("b", List.zipWith (fun u v => 2 * u + 7 * v) [3, 5] [1, 0])] = .ok [(n0, r0)] ∧
    ∀ (k : ℕ) (p0 p1 p2 : Row), r0[k]? = some p0 → r1[k]? = some p1 → r2[k]? = some p2 → (p0.tf = none ∧ p1.tf = none ∧ p2.tf = none) ∨
      ∃ t1 t2, p1.tf = some t1 ∧ p2.tf = some t2 ∧ p0.tf = some ((2 : ℝ) * t1 + (7 : ℝ) * t2) := by
  obtain ⟨n1, r1, h1⟩ := tiny_tf [3, 5]
  obtain ⟨n2, r2, h2⟩ := tiny_tf [1, 0]
  obtain ⟨n0, r0, h0⟩ := tiny_tf (List.zipWith (fun u v => 2 * u + 7 * v) [3, 5] [1, 0])
  exact ⟨n0, n1, n2, r0, r1, r2, h1, h2, h0, C44_linear _ "a" "b" [1, 2] [3, 5] [1, 0] rfl rfl 2 7 n0 n1 n2 r0 r1 r2 h1 h2 h0⟩

theorem demo_head (c1 : ℝ) : ∀ r, (demo c1).head? = some r → |2 * Real.pi * r.f * 0.4| < Real.pi := by
  intro r hr
  simp only [demo, List.head?_cons, Option.some.injEq] at hr
  subst hr; simp [Real.pi_pos]

theorem demo_usable (c1 : ℝ) : ∃ r ∈ demo c1, Coherent (some 0.5) r ∧ Below none r ∧ 0 < r.f :=
  ⟨⟨2, some (Complex.exp (-(2 * Real.pi * 2 * 0.4 : ℝ) * Complex.I)), some 1⟩, by simp [demo],
    ⟨(fun l hl => ⟨1, rfl, by rw [← Option.some.inj hl]; norm_num⟩ : Coherent _ _), (fun l hl => by exact absurd hl (by simp)), by norm_num⟩⟩

/-- The three methods find the delay of the witness. -/
example (c1 : ℝ) : ∃ ds ix, tfDelay [demo c1] (some 0.5) none "multi" = .ok (ds, ix) ∧ ds[0]? = some (some (0.4 : ℝ)) ∧
    List.Forall₂ (List.Forall₂ fun r b => (b = true ↔ Coherent (some 0.5) r ∧ Below none r)) [demo c1] ix := by
  obtain ⟨ds, ix, h⟩ : ∃ ds ix, tfDelay [demo c1] (some 0.5) none "multi" = .ok (ds, ix) := by
    unfold tfDelay
    rw [if_neg (by decide), if_neg (by decide), if_pos rfl]
    exact ⟨_, _, rfl⟩
  refine ⟨ds, ix, h, C45_multi [demo c1] (some 0.5) none ds ix h 0 (demo c1) rfl 0.4 (by simp [demo]) ?_ (fun r hr _ => demo_pure c1 r hr) (demo_steps c1)
    (demo_head c1) (demo_usable c1), C45_mask _ _ _ "multi" ds ix h⟩
  intro r hr
  simp only [demo, List.mem_cons, List.not_mem_nil, or_false] at hr
  rcases hr with rfl | rfl | rfl <;> norm_num

example : ∃ ix, tfDelay [demo 1] (some 0.5) none "fit" = .ok ([some 0.4], ix) := by
  refine C45_fit (demo 1) (demo 1) (some 0.5) none 0.4 ?_ (demo_pure 1) (demo_steps 1) (demo_head 1) ?_
  · symm
    rw [List.filter_eq_self]
    intro r hr
    rw [@decide_eq_true_iff _ (_)]
    simp only [demo, List.mem_cons, List.not_mem_nil, or_false] at hr
    refine ⟨?_, fun l hl => by cases hl⟩
    intro l hl
    rcases hr with rfl | rfl | rfl <;> exact ⟨1, rfl, by rw [← Option.some.inj hl]; norm_num⟩
  · obtain ⟨r, hr, -, -, h⟩ := demo_usable 1
    exact ⟨r, hr, h.ne'⟩

example (c1 : ℝ) : ∃ ix, tfDelay [demo c1] (some 0.5) none "diff" = .ok ([some 0.4], ix) := by
  refine C45_diff (demo c1) (some 0.5) none 0.4 (by simp [demo]) (by simp [demo]) (demo_pure c1) (demo_steps c1) (demo_head c1) ?_
  obtain ⟨r, hr, h1, h2, -⟩ := demo_usable c1
  exact ⟨r, hr, h1, h2⟩

/-- The hypotheses of C45 hold for an impulse moved round by one sample. -/
example : ∃ mask mc, computeDelaysTf ⟨1, 1, 0, fun L => List.replicate L 1, .none⟩ [("a", [1, 0, 0, 0])] [("b", roll [1, 0, 0, 0] 1)] (some 0.6) (some 0.3) "multi" =
    .ok [(some ((1 : ℤ) * 1), mask, mc)] :=
  C45_circular "a" "b" [1, 0, 0, 0] 1 1 0 0.3 (some 0.6) "multi" (Or.inl rfl) one_pos (by norm_num) (by norm_num)
    (fun l hl => by rw [← Option.some.inj hl]; norm_num) (by norm_num) (by norm_num)
    (by intro k _ _; simp [Finset.sum_range_succ]) .none

example : ∃ out, interpTf [1.5] [((2 : ℝ), (1 : ℂ)), (1, 3)] = .ok out ∧ out.length = 1 := by
  obtain ⟨out, h⟩ := (C53_range [((2 : ℝ), (1 : ℂ)), (1, 3)] (by simp) (by simp) [1.5]).2 (by norm_num)
  exact ⟨out, h, (C53_magnitude _ (by simp) _ _ h).length_eq.symm⟩

end SST.Props.Tf
