import Verif.Proofs.TfEdge
import Mathlib.Analysis.Real.Pi.Bounds

/-!
# C220, C221: transfer-function delays with inexact phases

`tf_delay` on phases that are linear up to an error, and `compute_delays_tf` on two records of one pattern.
-/

namespace SST.Tf
open SST SST.Dft SST.Corr

/-! ## C220 -/

/-- C220, method 'multi': if the bins below the frequency limit have the phase of a delay `τ` up to `ε` (and the phase can be
unwrapped), the delay is off by at most `ε/2π` divided by the mean frequency of the usable bins. -/
theorem C220_multi (cols : List (List Row)) (cohLim freqLim : Option ℝ) (ds : List (Option ℝ)) (ix : List (List Bool))
    (h : tfDelay cols cohLim freqLim "multi" = .ok (ds, ix)) (k : ℕ) (rows : List Row) (hk : cols[k]? = some rows) (τ ε : ℝ)
    (hsort : rows.Pairwise fun a b => a.f < b.f) (hf : ∀ r ∈ rows, 0 ≤ r.f)
    (hp : ∀ r ∈ rows, Below freqLim r → NearDelay τ ε r) (hs : rows.IsChain fun a b => Below freqLim b → SafeStep τ ε a b)
    (h0 : ∀ r, rows.head? = some r → |2 * Real.pi * r.f * τ| + ε < Real.pi)
    (hne : ∃ r ∈ rows, Coherent cohLim r ∧ Below freqLim r ∧ 0 < r.f) :
    ∃ d, ds[k]? = some (some d) ∧
      |d - τ| * (2 * Real.pi * ((usable cohLim freqLim rows).map Row.f).sum) ≤ (usable cohLim freqLim rows).length * ε := by
  have hds : ds = cols.map (multiDelay cohLim freqLim) := by
    unfold tfDelay at h
    rw [if_neg (by decide), if_neg (by decide), if_pos rfl] at h
    exact (Prod.mk.inj (Except.ok.inj h)).1.symm
  obtain ⟨d, hd, hb⟩ := multi_near cohLim freqLim τ ε rows hsort hf hp hs h0 hne
  exact ⟨d, by rw [hds, List.getElem?_map, hk, Option.map_some, hd], hb⟩

/-- C220, method 'fit': the same for the usable bins alone, with the weights of a least-squares fit. -/
theorem C220_fit (rows : List Row) (cohLim freqLim : Option ℝ) (τ ε : ℝ) (hf : ∀ r ∈ rows, 0 ≤ r.f)
    (hp : ∀ r ∈ usable cohLim freqLim rows, NearDelay τ ε r) (hs : (usable cohLim freqLim rows).IsChain (SafeStep τ ε))
    (h0 : ∀ r, (usable cohLim freqLim rows).head? = some r → |2 * Real.pi * r.f * τ| + ε < Real.pi)
    (hne : ∃ r ∈ usable cohLim freqLim rows, r.f ≠ 0) :
    ∃ d ix, tfDelay [rows] cohLim freqLim "fit" = .ok ([some d], ix) ∧
      |d - τ| * (2 * Real.pi * ((usable cohLim freqLim rows).map fun r => r.f ^ 2).sum) ≤ ε * ((usable cohLim freqLim rows).map Row.f).sum := by
  obtain ⟨d, hd, hb⟩ := fit_near cohLim freqLim τ ε rows hf hp hs h0 hne
  refine ⟨d, [maskOf cohLim freqLim rows], ?_, hb⟩
  unfold tfDelay
  rw [if_neg (by decide), if_pos rfl]
  simp [hd]

/-- C220, method 'diff': with bins at least `Δ` apart the delay is off by at most `ε / (π Δ)`. -/
theorem C220_diff (rows : List Row) (cohLim freqLim : Option ℝ) (τ ε Δ : ℝ) (hΔ : 0 < Δ) (hgap : rows.IsChain fun a b => Δ ≤ b.f - a.f)
    (hlen : 2 ≤ rows.length) (hp : ∀ r ∈ rows, NearDelay τ ε r) (hs : rows.IsChain (SafeStep τ ε))
    (h0 : ∀ r, rows.head? = some r → |2 * Real.pi * r.f * τ| + ε < Real.pi)
    (hne : ∃ r ∈ rows, Coherent cohLim r ∧ Below freqLim r) :
    ∃ d ix, tfDelay [rows] cohLim freqLim "diff" = .ok ([some d], ix) ∧ |d - τ| * (Real.pi * Δ) ≤ ε := by
  obtain ⟨d, hd, hb⟩ := diff_near cohLim freqLim τ ε Δ hΔ rows hgap hlen hp hs h0 hne
  refine ⟨d, [maskOf cohLim freqLim rows], ?_, hb⟩
  unfold tfDelay
  rw [if_pos rfl]
  simp [hd, Except.map]

/-- Three bins with the phases 0, -0.9 and -2.1 of a delay of 1 s (0, -1, -2) with errors up to 0.1. -/
noncomputable def demoRows : List Row :=
  [⟨0, some (Complex.exp ((0 : ℝ) * Complex.I)), some 1⟩,
   ⟨1 / (2 * Real.pi), some (2 * Complex.exp ((-0.9 : ℝ) * Complex.I)), some 0.9⟩,
   ⟨2 / (2 * Real.pi), some (3 * Complex.exp ((-2.1 : ℝ) * Complex.I)), some 0.8⟩]

theorem demo_near : ∀ r ∈ demoRows, NearDelay 1 0.1 r := by
  have hpi := Real.pi_pos
  intro r hr
  simp only [demoRows, List.mem_cons, List.not_mem_nil, or_false] at hr
  rcases hr with rfl | rfl | rfl
  · exact ⟨1, 0, one_pos, by norm_num, by simp⟩
  · refine ⟨2, 0.1, two_pos, by norm_num, ?_⟩
    have e : -(2 * Real.pi * (1 / (2 * Real.pi)) * 1) + 0.1 = -0.9 := by field_simp; norm_num
    simp only [e]
    norm_num
  · refine ⟨3, -0.1, by norm_num, by norm_num, ?_⟩
    have e : -(2 * Real.pi * (2 / (2 * Real.pi)) * 1) + -0.1 = -2.1 := by field_simp; norm_num
    simp only [e]
    norm_num

theorem demo_safe : demoRows.IsChain (SafeStep 1 0.1) := by
  have h := Real.pi_gt_three
  unfold demoRows SafeStep
  simp only [List.isChain_cons_cons, List.isChain_singleton, and_true]
  constructor
  · have : 2 * Real.pi * (1 / (2 * Real.pi) - 0) * 1 = 1 := by field_simp; ring
    rw [this]; norm_num; linarith
  · have : 2 * Real.pi * (2 / (2 * Real.pi) - 1 / (2 * Real.pi)) * 1 = 1 := by field_simp; ring
    rw [this]; norm_num; linarith

example : ∃ d ix, tfDelay [demoRows] (some 0.5) none "diff" = .ok ([some d], ix) ∧ |d - 1| * (Real.pi * (1 / (2 * Real.pi))) ≤ 0.1 := by
  have hpi := Real.pi_gt_three
  apply C220_diff demoRows (some 0.5) none 1 0.1 (1 / (2 * Real.pi)) (by positivity)
  · unfold demoRows
    simp only [List.isChain_cons_cons, List.isChain_singleton, and_true]
    constructor
    · simp
    · have : 2 / (2 * Real.pi) - 1 / (2 * Real.pi) = 1 / (2 * Real.pi) := by field_simp; ring
      rw [this]
  · simp [demoRows]
  · exact demo_near
  · exact demo_safe
  · intro r hr
    simp only [demoRows, List.head?_cons, Option.some.injEq] at hr
    subst hr
    norm_num
    linarith
  · refine ⟨_, by unfold demoRows; exact List.mem_cons_self, ?_, ?_⟩
    · intro l hl; cases hl; exact ⟨1, rfl, by norm_num⟩
    · intro l hl; cases hl

example : ∃ d, (tfDelay [demoRows] (some 0.5) none "multi").map Prod.fst = .ok [some d] ∧
    |d - 1| * (2 * Real.pi * ((usable (some 0.5) none demoRows).map Row.f).sum) ≤ (usable (some 0.5) none demoRows).length * 0.1 := by
  have hpi := Real.pi_gt_three
  have hp2 : 0 < Real.pi := Real.pi_pos
  have e : tfDelay [demoRows] (some 0.5) none "multi" = .ok ([multiDelay (some 0.5) none demoRows], [maskOf (some 0.5) none demoRows]) := rfl
  obtain ⟨d, h1, h2⟩ := C220_multi [demoRows] (some 0.5) none _ _ e 0 demoRows rfl 1 0.1
    (by
      unfold demoRows
      simp only [List.pairwise_cons, List.mem_cons, List.not_mem_nil, or_false, forall_eq_or_imp, forall_eq, false_implies, implies_true, List.Pairwise.nil, and_true]
      refine ⟨⟨by positivity, by positivity⟩, ?_⟩
      apply div_lt_div_of_pos_right (by norm_num) (by positivity))
    (by
      intro r hr
      simp only [demoRows, List.mem_cons, List.not_mem_nil, or_false] at hr
      rcases hr with rfl | rfl | rfl <;> simp <;> positivity)
    (fun r hr _ => demo_near r hr) (demo_safe.imp fun _ _ h _ => h)
    (by
      intro r hr
      simp only [demoRows, List.head?_cons, Option.some.injEq] at hr
      subst hr
      norm_num
      linarith)
    (by
      refine ⟨_, by unfold demoRows; exact List.mem_cons_of_mem _ List.mem_cons_self, ?_, ?_, ?_⟩
      · intro l hl; cases hl; exact ⟨0.9, rfl, by norm_num⟩
      · intro l hl; cases hl
      · simp; positivity)
  refine ⟨d, ?_, h2⟩
  simp only [List.getElem?_cons_zero, Option.some.injEq] at h1
  rw [e, h1]; rfl

example : ∃ d ix, tfDelay [demoRows] none none "fit" = .ok ([some d], ix) ∧
    |d - 1| * (2 * Real.pi * ((usable none none demoRows).map fun r => r.f ^ 2).sum) ≤ 0.1 * ((usable none none demoRows).map Row.f).sum := by
  have hpi := Real.pi_gt_three
  have e : usable none none demoRows = demoRows := by
    unfold usable
    rw [List.filter_eq_self]
    intro r _
    simp [Coherent, Below]
  have hp2 : 0 < Real.pi := Real.pi_pos
  apply C220_fit demoRows none none 1 0.1
  · intro r hr
    simp only [demoRows, List.mem_cons, List.not_mem_nil, or_false] at hr
    rcases hr with rfl | rfl | rfl <;> simp <;> positivity
  · rw [e]; exact demo_near
  · rw [e]; exact demo_safe
  · rw [e]
    intro r hr
    simp only [demoRows, List.head?_cons, Option.some.injEq] at hr
    subst hr
    norm_num
    linarith
  · rw [e]
    refine ⟨_, by unfold demoRows; exact List.mem_cons_of_mem _ List.mem_cons_self, ?_⟩
    simp

/-! ## C221 -/

/-- The edge effect of a bounded pattern is at most its bound times the shift times the total variation of the window
(which counts the steps at its ends; it is 2 for a window of ones and 2 for a Hamming window with a sample at its top). -/
theorem C221_edge (w : List ℝ) (a : ℤ → ℝ) (L s : ℕ) (m : ℤ) (A : ℝ) (hA : ∀ t, |a t| ≤ A) :
    edgeEffect w a L s m ≤ A * (|m| * ∑ i ∈ Finset.Ico (-1) (L : ℤ), |tap w L (i + 1) - tap w L i|) := by
  have hA0 : 0 ≤ A := (abs_nonneg _).trans (hA 0)
  set V := ∑ i ∈ Finset.Ico (-1) (L : ℤ), |tap w L (i + 1) - tap w L i| with hV
  have hout : ∀ i : ℤ, i ∉ Finset.Ico (-1) (L : ℤ) → |tap w L (i + 1) - tap w L i| = 0 := by
    intro i hi
    rw [Finset.mem_Ico] at hi
    have h1 : tap w L (i + 1) = 0 := by unfold tap; rw [if_neg (by omega)]
    have h2 : tap w L i = 0 := by unfold tap; rw [if_neg (by omega)]
    rw [h1, h2]; simp
  have hstep : ∀ (c : ℤ) (T : Finset ℤ), ∑ i ∈ T, |tap w L (i + c + 1) - tap w L (i + c)| ≤ V := by
    intro c T
    have : ∑ i ∈ T, |tap w L (i + c + 1) - tap w L (i + c)| = ∑ i ∈ T.map ⟨fun i => i + c, fun x y h => by simpa using h⟩, |tap w L (i + 1) - tap w L i| := by
      rw [Finset.sum_map]; rfl
    rw [this, hV]
    have e : ∑ i ∈ T.map ⟨fun i => i + c, fun x y h => by simpa using h⟩, |tap w L (i + 1) - tap w L i| =
        ∑ i ∈ (T.map ⟨fun i => i + c, fun x y h => by simpa using h⟩).filter (fun i => i ∈ Finset.Ico (-1) (L : ℤ)), |tap w L (i + 1) - tap w L i| := by
      symm
      apply Finset.sum_subset (Finset.filter_subset _ _)
      intro i hi hn
      apply hout i
      intro hc
      exact hn (Finset.mem_filter.2 ⟨hi, hc⟩)
    rw [e]
    apply Finset.sum_le_sum_of_subset_of_nonneg
    · intro i hi; exact (Finset.mem_filter.1 hi).2
    · intro i _ _; exact abs_nonneg _
  have hnat : ∀ (q : ℕ) (c : ℤ) (T : Finset ℤ), ∑ i ∈ T, |tap w L (i + c + q) - tap w L (i + c)| ≤ q * V := by
    intro q
    induction q with
    | zero => intro c T; simp
    | succ q ih =>
      intro c T
      have h1 : ∀ i ∈ T, |tap w L (i + c + ((q + 1 : ℕ) : ℤ)) - tap w L (i + c)| ≤
          |tap w L (i + (c + q) + 1) - tap w L (i + (c + q))| + |tap w L (i + c + q) - tap w L (i + c)| := by
        intro i _
        have e : i + c + ((q + 1 : ℕ) : ℤ) = i + (c + q) + 1 := by push_cast; ring
        rw [e, ← add_assoc i c]
        exact abs_sub_le _ _ _
      refine (Finset.sum_le_sum h1).trans ?_
      rw [Finset.sum_add_distrib]
      have := hstep (c + q) T
      have := ih c T
      push_cast
      linarith
  have hall : ∑ i ∈ Finset.Ico (-|m|) (L + |m|), |tap w L (i + m) - tap w L i| ≤ |m| * V := by
    rcases le_total 0 m with h | h
    · obtain ⟨q, rfl⟩ := Int.eq_ofNat_of_zero_le h
      have := hnat q 0 (Finset.Ico (-|(q : ℤ)|) (L + |(q : ℤ)|))
      simp only [add_zero] at this
      rw [abs_of_nonneg h] at this ⊢
      exact_mod_cast this
    · obtain ⟨q, hq⟩ := Int.eq_ofNat_of_zero_le (neg_nonneg.2 h)
      have hm : m = -(q : ℤ) := by omega
      have := hnat q m (Finset.Ico (-|m|) (L + |m|))
      rw [abs_of_nonpos h, hq] at this ⊢
      rw [hm] at this ⊢
      simp only [neg_add_cancel_right] at this
      refine le_trans (le_of_eq (Finset.sum_congr rfl fun i _ => abs_sub_comm _ _)) ?_
      exact_mod_cast this
  unfold edgeEffect
  calc _ ≤ ∑ i ∈ Finset.Ico (-|m|) (L + |m|), |tap w L (i + m) - tap w L i| * A :=
        Finset.sum_le_sum fun i _ => mul_le_mul_of_nonneg_left (hA _) (abs_nonneg _)
    _ = A * ∑ i ∈ Finset.Ico (-|m|) (L + |m|), |tap w L (i + m) - tap w L i| := by rw [← Finset.sum_mul, mul_comm]
    _ ≤ _ := mul_le_mul_of_nonneg_left hall hA0

private theorem filter_range {N K : ℕ} (h : K < N) : (List.range N).filter (fun k => decide (k ≤ K)) = List.range (K + 1) := by
  obtain ⟨t, rfl⟩ : ∃ t, N = (K + 1) + t := ⟨N - (K + 1), by omega⟩
  rw [List.range_add, List.filter_append, List.filter_eq_self.2, List.filter_eq_nil_iff.2, List.append_nil]
  · intro k hk
    obtain ⟨j, -, rfl⟩ := List.mem_map.1 hk
    simp
    omega
  · intro k hk
    rw [List.mem_range] at hk
    simp
    omega

private theorem sum_first (K : ℕ) (c : ℝ) : ((List.range (K + 1)).map fun (k : ℕ) => (k : ℝ) / c).sum = K * (K + 1) / 2 / c := by
  induction K with
  | zero => simp
  | succ K ih =>
    rw [List.range_succ, List.map_append, List.sum_append, ih]
    simp
    ring

private theorem sum_second (K : ℕ) (c : ℝ) : ((List.range (K + 1)).map fun (k : ℕ) => ((k : ℝ) / c) ^ 2).sum = K * (K + 1) * (2 * K + 1) / 6 / c ^ 2 := by
  induction K with
  | zero => simp
  | succ K ih =>
    rw [List.range_succ, List.map_append, List.sum_append, ih]
    simp
    ring

private theorem listsum_range (S : ℕ) (f : ℕ → ℝ) : ((List.range S).map f).sum = ∑ i ∈ Finset.range S, f i := by
  rw [← Finset.sum_map_toList (Finset.range S)]
  exact List.Perm.sum_eq (List.Perm.map _ (List.perm_of_nodup_nodup_toFinset_eq List.nodup_range (Finset.nodup_toList _) (by ext; simp)))

/-- Two records whose spectra in the bins below the limit are those of a delay up to the part `ρ` (root mean square over the segments). -/
theorem frozen_near (u v : String) (x y : List ℝ) (n navgs L h S K : ℕ) (hx : x.length = n) (hy : y.length = n) (m : ℤ) (dt ov fl ρ : ℝ) (win : ℕ → List ℝ) (det : Detrend)
    (cohLim : Option ℝ) (hdt : 0 < dt) (hov : 0 ≤ ov) (hL : L = n / navgs) (hh : h = L - ⌊(L : ℝ) * ov⌋₊) (hS : AsManyAsFit n L h S)
    (hρ0 : 0 ≤ ρ) (hm : 2 * |(m : ℝ)| < (1 - ρ) * L)
    (hedge : ∀ k : ℕ, k ≤ L / 2 → (k : ℝ) / (L * dt) < fl → 0 < ∑ i ∈ Finset.range S, ‖Tf.spectrum (win L) .none (Tf.segment x L (i * h)) k‖ ^ 2 ∧
      ∑ i ∈ Finset.range S, ‖Tf.spectrum (win L) .none (Tf.segment y L (i * h)) k - twiddle L (m * k) * Tf.spectrum (win L) .none (Tf.segment x L (i * h)) k‖ ^ 2 ≤
        ρ ^ 2 * ∑ i ∈ Finset.range S, ‖Tf.spectrum (win L) .none (Tf.segment x L (i * h)) k‖ ^ 2)
    (hcl : ∀ l, cohLim = some l → l < ((1 - ρ) / (1 + ρ)) ^ 2)
    (hK : 1 ≤ K) (hKL : K ≤ L / 2) (hKf : (K : ℝ) / (L * dt) < fl) (hKlast : K < L / 2 → fl ≤ (K + 1) / (L * dt)) :
    (∃ d mask mc, computeDelaysTf ⟨dt, navgs, ov, win, det⟩ [(u, x)] [(v, y)] cohLim (some fl) "multi" =
        .ok [(some d, mask, mc)] ∧ |d - m * dt| ≤ ρ * (L * dt) / (2 * K)) ∧
    ∃ d mask mc, computeDelaysTf ⟨dt, navgs, ov, win, det⟩ [(u, x)] [(v, y)] cohLim (some fl) "fit" =
        .ok [(some d, mask, mc)] ∧ |d - m * dt| ≤ 3 * ρ * (L * dt) / (4 * (2 * K + 1)) := by
  classical
  set o : Opts := ⟨dt, navgs, ov, win, .none⟩ with ho
  have hL0 : 0 < L := by omega
  have hLR : (0 : ℝ) < L := by exact_mod_cast hL0
  have hLd : (0 : ℝ) < L * dt := by positivity
  have hnav : navgs ≠ 0 := by
    rintro rfl
    simp at hL; omega
  have hLn : L ≤ n := hL ▸ Nat.div_le_self _ _
  set ovn := ⌊(L : ℝ) * ov⌋₊ with hovn
  have hovL : ovn < L := by have := hS.1; omega
  have hpy : pyInt ((L : ℝ) * ov) = (ovn : ℤ) := by
    unfold pyInt
    rw [if_pos (by positivity), hovn, Int.natCast_floor_eq_floor (by positivity)]
  have hSe : S = (n - ovn) / (L - ovn) := segs_unique (hh ▸ hS) (segs_fit hLn hovL)
  set rows := pairTf o L ovn x y with hrows
  have havg : averagedTf o [(u, x)] [(v, y)] = .ok [(u ++ "_" ++ v, rows)] := by
    unfold averagedTf pairCols
    simp only [List.length_singleton, if_true, List.zipWith_cons_cons, List.zipWith_nil_left, List.headD_cons, hx]
    rw [if_neg hnav, ← hL, hpy, if_neg (by omega)]
    simp [hrows]
  have hρ1 : ρ < 1 := by
    by_contra hc
    push Not at hc
    have : (1 - ρ) * L ≤ 0 := mul_nonpos_of_nonpos_of_nonneg (by linarith) hLR.le
    have := abs_nonneg (m : ℝ)
    linarith
  set ε := Real.pi / 2 * ρ with hε
  have hpi := Real.pi_pos
  -- every bin below the limit
  have hbin : ∀ r ∈ rows, Below (some fl) r → NearDelay (m * dt) ε r ∧ Coherent cohLim r := by
    intro r hr hb
    obtain ⟨k, hk, rfl⟩ := pairTf_mem hr
    have hkf : (k : ℝ) / (L * dt) < fl := hb fl rfl
    obtain ⟨hP, hE⟩ := hedge k (by omega) hkf
    have hstarts : segStarts n L ovn = (List.range S).map fun s => s * h := by
      unfold segStarts
      rw [← hSe, hh]
    have hX : ∀ z : List ℝ, z.length = n → spectra (o.win L) o.detr L ovn z k = (List.range S).map fun i => Tf.spectrum (win L) .none (Tf.segment z L (i * h)) k := by
      intro z hz
      unfold spectra
      rw [hz, hstarts, List.map_map]
      rfl
    have hw : 0 < ((win L).map fun v => v ^ 2).sum := by
      by_contra hc
      have h0 : ∀ v ∈ win L, v = 0 := by
        intro v hv
        have h1 : ∀ q ∈ (win L).map (fun v => v ^ 2), (0 : ℝ) ≤ q := by
          intro q hq
          obtain ⟨v, -, rfl⟩ := List.mem_map.1 hq
          positivity
        have := List.single_le_sum h1 _ (List.mem_map.2 ⟨v, hv, rfl⟩)
        have : v ^ 2 ≤ 0 := by linarith
        exact pow_eq_zero_iff two_ne_zero |>.1 (le_antisymm this (sq_nonneg v))
      have h1 : ∀ i, Tf.spectrum (win L) .none (Tf.segment x L (i * h)) k = 0 := by
        intro i
        unfold Tf.spectrum
        apply Finset.sum_eq_zero
        intro j _
        have : at0 (win L) j = 0 := by
          unfold at0
          cases hj : (win L)[j]? with
          | none => rfl
          | some v => exact h0 v (List.mem_of_getElem? hj)
        rw [this]; simp
      simp [h1] at hP
    have hc : 0 < psdScale (o.win L) o.dt L k := by
      unfold psdScale
      have : (0 : ℝ) < if k = 0 ∨ 2 * k = L then 1 else 2 := by split_ifs <;> norm_num
      have hw' : 0 < ((o.win L).map fun v => v ^ 2).sum := hw
      have hd' : 0 < o.dt := hdt
      positivity
    obtain ⟨⟨δ, hδ, htf⟩, w, hcoh, hwge⟩ := bins_near (List.range S) (fun i => Tf.spectrum (win L) .none (Tf.segment x L (i * h)) k)
      (fun i => spectrum (win L) .none (segment (y) L (i * h)) k) (twiddle L (m * k)) (norm_twiddle _ _)
      (psdScale (o.win L) o.dt L k) ρ hc hρ0 hρ1 (fun i => ‖Tf.spectrum (win L) .none (Tf.segment y L (i * h)) k - twiddle L (m * k) * Tf.spectrum (win L) .none (Tf.segment x L (i * h)) k‖)
      (fun i _ => le_rfl)
      (by rw [listsum_range]; simpa only [Complex.normSq_eq_norm_sq] using hP)
      (by rw [listsum_range, listsum_range]; simpa only [Complex.normSq_eq_norm_sq] using hE)
    rw [hX x hx, hX y hy]
    constructor
    · refine ⟨‖1 + δ‖, Complex.arg (1 + δ), ?_, arg_near hρ1 hδ, ?_⟩
      · rw [norm_pos_iff]
        intro h0
        have : δ = -1 := by linear_combination h0
        rw [this] at hδ
        simp at hδ
        linarith
      · show tfBin _ _ _ = _
        rw [htf]
        congr 1
        have e1 := Complex.norm_mul_exp_arg_mul_I (1 + δ)
        have e2 : twiddle L (m * k) = Complex.exp ((-(2 * Real.pi * (k / (L * dt)) * (m * dt)) : ℝ) * Complex.I) := by
          unfold twiddle
          congr 1
          push_cast
          have h1 : (L : ℂ) ≠ 0 := by exact_mod_cast hL0.ne'
          have h2 : (dt : ℂ) ≠ 0 := by exact_mod_cast hdt.ne'
          field_simp
        show _ = (‖1 + δ‖ : ℂ) * Complex.exp ((-(2 * Real.pi * (k / (L * dt)) * (m * dt)) + Complex.arg (1 + δ) : ℝ) * Complex.I)
        rw [Complex.ofReal_add, add_mul, Complex.exp_add, ← e2]
        linear_combination (-twiddle L (m * k)) * e1
    · intro l hl
      exact ⟨w, hcoh, lt_of_lt_of_le (hcl l hl) hwge⟩
  have hsort : rows.Pairwise fun a b => a.f < b.f := pairTf_sorted o hdt hL0 ovn _ _
  have hf0 : ∀ r ∈ rows, 0 ≤ r.f := by
    intro r hr
    obtain ⟨k, -, rfl⟩ := pairTf_mem hr
    show (0 : ℝ) ≤ (k : ℝ) / (L * dt); positivity
  have hstep : rows.IsChain (SafeStep (m * dt) ε) := by
    apply pairTf_chain
    intro k ra rb h1 h2
    unfold SafeStep
    rw [h1, h2, show o.dt = dt from rfl]
    have e : 2 * Real.pi * (((k : ℝ) + 1) / (L * dt) - k / (L * dt)) * (m * dt) = Real.pi / L * (2 * m) := by
      field_simp; ring
    rw [e, abs_mul, abs_of_pos (by positivity), abs_mul, abs_of_pos (two_pos : (0 : ℝ) < 2), hε]
    have : Real.pi / L * (2 * |(m : ℝ)|) < Real.pi / L * ((1 - ρ) * L) := mul_lt_mul_of_pos_left hm (by positivity)
    have e2 : Real.pi / L * ((1 - ρ) * L) = Real.pi * (1 - ρ) := by field_simp
    rw [e2] at this
    linarith
  have hhead : ∀ r, rows.head? = some r → |2 * Real.pi * r.f * (m * dt)| + ε < Real.pi := by
    intro r hr
    rw [List.head?_eq_getElem?] at hr
    obtain ⟨-, rfl⟩ := pairTf_getElem hr
    simp
    rw [hε]
    nlinarith
  -- the usable bins
  have hbelow : ∀ k : ℕ, k ≤ L / 2 → ((k : ℝ) / (L * dt) < fl ↔ k ≤ K) := by
    intro k hk
    constructor
    · intro h1
      by_contra hc
      have hc' : K + 1 ≤ k := by omega
      have h2 := hKlast (by omega)
      have : ((K : ℝ) + 1) / (L * dt) ≤ k / (L * dt) := by
        apply div_le_div_of_nonneg_right _ hLd.le
        exact_mod_cast hc'
      linarith
    · intro h1
      have : (k : ℝ) / (L * dt) ≤ K / (L * dt) := by
        apply div_le_div_of_nonneg_right _ hLd.le
        exact_mod_cast h1
      linarith
  have hmemU : ∀ r ∈ rows, (Coherent cohLim r ∧ Below (some fl) r) ↔ r.f < fl := by
    intro r hr
    constructor
    · intro h1; exact h1.2 fl rfl
    · intro h1
      have hb : Below (some fl) r := fun l hl => by rw [← Option.some.inj hl]; exact h1
      exact ⟨(hbin r hr hb).2, hb⟩
  have husable : ∃ g : ℕ → Row, (∀ k, (g k).f = k / (L * dt)) ∧ usable cohLim (some fl) rows = (List.range (K + 1)).map g := by
    have e1 : usable cohLim (some fl) rows = rows.filter fun r => decide (r.f < fl) := by
      unfold usable
      apply List.filter_congr
      intro r hr
      simp only [hmemU r hr]
    refine ⟨fun k => ⟨k / (L * o.dt), tfBin (psdScale (o.win L) o.dt L k) (spectra (o.win L) o.detr L ovn (x) k) (spectra (o.win L) o.detr L ovn (y) k),
      cohBin (psdScale (o.win L) o.dt L k) (spectra (o.win L) o.detr L ovn (x) k) (spectra (o.win L) o.detr L ovn (y) k)⟩, fun k => rfl, ?_⟩
    rw [e1, hrows]
    unfold pairTf
    rw [List.filter_map, ← filter_range (show K < L / 2 + 1 by omega)]
    congr 1
    apply List.filter_congr
    intro k hk
    rw [List.mem_range] at hk
    simp only [Function.comp, decide_eq_decide]
    exact hbelow k (by omega)
  obtain ⟨g, hg, hus⟩ := husable
  have hsum1 : ((usable cohLim (some fl) rows).map Row.f).sum = K * (K + 1) / 2 / (L * dt) := by
    rw [hus, List.map_map, ← sum_first]
    congr 1
    apply List.map_congr_left
    intro k _
    exact hg k
  have hsum2 : ((usable cohLim (some fl) rows).map fun r => r.f ^ 2).sum = K * (K + 1) * (2 * K + 1) / 6 / (L * dt) ^ 2 := by
    rw [hus, List.map_map, ← sum_second]
    congr 1
    apply List.map_congr_left
    intro k _
    simp only [Function.comp, hg k]
  have hul : (usable cohLim (some fl) rows).length = K + 1 := by rw [hus]; simp
  have hKR : (1 : ℝ) ≤ K := by exact_mod_cast hK
  have h1mem : g 1 ∈ usable cohLim (some fl) rows := by
    rw [hus]; exact List.mem_map.2 ⟨1, by simp; omega, rfl⟩
  have h1pos : 0 < (g 1).f := by rw [hg]; push_cast; positivity
  have hcompute : ∀ method, (method = "multi" ∨ method = "fit") → ∀ d, (if method = "fit" then fitDelay cohLim (some fl) rows else multiDelay cohLim (some fl) rows) = some d →
      computeDelaysTf ⟨dt, navgs, ov, win, det⟩ [(u, x)] [(v, y)] cohLim (some fl) method =
        .ok [(some d, maskOf cohLim (some fl) rows, meanCoh fl rows)] := by
    intro method hmeth d hd
    unfold computeDelaysTf
    rw [if_neg (by simp)]
    rw [show ({ (⟨dt, navgs, ov, win, det⟩ : Opts) with detr := Detrend.none }) = o from rfl, havg]
    simp only
    rw [if_neg (by simp), if_neg (by tauto)]
    simp only [List.map_cons, List.map_nil, hd]
  constructor
  · obtain ⟨d, hd, hb⟩ := multi_near cohLim (some fl) (m * dt) ε rows hsort hf0 (fun r hr hb => (hbin r hr hb).1) (hstep.imp fun _ _ h _ => h) hhead
      (by
        have h2 := h1mem
        unfold usable at h2
        rw [List.mem_filter] at h2
        have h3 := of_decide_eq_true h2.2
        exact ⟨g 1, h2.1, h3.1, h3.2, h1pos⟩)
    refine ⟨d, _, _, hcompute "multi" (Or.inl rfl) d (by rw [if_neg (by decide)]; exact hd), ?_⟩
    rw [hsum1, hul, hε] at hb
    push_cast at hb
    rw [le_div_iff₀ (by positivity)]
    have h5 : |d - m * dt| * (2 * Real.pi * (K * (K + 1) / 2 / (L * dt))) = (Real.pi * (K + 1) / (2 * (L * dt))) * (|d - m * dt| * (2 * K)) := by
      field_simp
    have h6 : ((K : ℝ) + 1) * (Real.pi / 2 * ρ) = (Real.pi * (K + 1) / (2 * (L * dt))) * (ρ * (L * dt)) := by
      field_simp
    rw [h5, h6] at hb
    exact le_of_mul_le_mul_left hb (by positivity)
  · have hmem : ∀ r ∈ usable cohLim (some fl) rows, r ∈ rows ∧ Below (some fl) r := by
      intro r hr
      unfold usable at hr
      rw [List.mem_filter] at hr
      exact ⟨hr.1, (of_decide_eq_true hr.2).2⟩
    have hpre : usable cohLim (some fl) rows <+: rows := by
      have e1 : usable cohLim (some fl) rows = rows.filter fun r => decide (Below (some fl) r) := by
        unfold usable
        apply List.filter_congr
        intro r hr
        have := hmemU r hr
        simp only [decide_eq_decide]
        constructor
        · exact fun h => h.2
        · exact fun h => ⟨(hbin r hr h).2, h⟩
      rw [e1]
      exact below_prefix (some fl) rows hsort (fun r => decide (Below (some fl) r)) (by simp)
    obtain ⟨d, hd, hb⟩ := fit_near cohLim (some fl) (m * dt) ε rows hf0 (fun r hr => (hbin r (hmem r hr).1 (hmem r hr).2).1)
      (List.IsChain.prefix hstep hpre)
      (by
        intro r hr
        apply hhead r
        obtain ⟨t, ht⟩ := hpre
        rw [← ht]
        cases hc : usable cohLim (some fl) rows with
        | nil => rw [hc] at hr; simp at hr
        | cons c cs => rw [hc] at hr; simpa using hr)
      ⟨g 1, h1mem, h1pos.ne'⟩
    refine ⟨d, _, _, hcompute "fit" (Or.inr rfl) d (by rw [if_pos rfl]; exact hd), ?_⟩
    rw [hsum1, hsum2, hε] at hb
    rw [le_div_iff₀ (by positivity)]
    have h5 : |d - m * dt| * (2 * Real.pi * (K * (K + 1) * (2 * K + 1) / 6 / (L * dt) ^ 2)) =
        (Real.pi * (K * (K + 1)) / (12 * (L * dt) ^ 2)) * (|d - m * dt| * (4 * (2 * K + 1))) := by
      field_simp
      ring
    have h6 : Real.pi / 2 * ρ * ((K : ℝ) * (K + 1) / 2 / (L * dt)) = (Real.pi * (K * (K + 1)) / (12 * (L * dt) ^ 2)) * (3 * ρ * (L * dt)) := by
      field_simp
      ring
    rw [h5, h6] at hb
    exact le_of_mul_le_mul_left hb (by positivity)

/-- C221: two sensors see one pattern, the second `m` samples later.  If in every bin below the frequency limit the edge
effects are small compared with the spectrum (root mean square over the segments: at most the part `ρ` of it), the delay
found by `compute_delays_tf` is that of the pattern up to `ρ L dt / 2K` (method 'multi') or `3 ρ L dt / 4(2K+1)` ('fit'),
where `L` is the length of a segment and `K` the last bin below the limit. -/
theorem C221_frozen (u v : String) (a : ℤ → ℝ) (n navgs L h S K : ℕ) (m : ℤ) (dt ov fl ρ : ℝ) (win : ℕ → List ℝ) (det : Detrend)
    (cohLim : Option ℝ) (hdt : 0 < dt) (hov : 0 ≤ ov) (hL : L = n / navgs) (hh : h = L - ⌊(L : ℝ) * ov⌋₊) (hS : AsManyAsFit n L h S)
    (hρ0 : 0 ≤ ρ) (hm : 2 * |(m : ℝ)| < (1 - ρ) * L)
    (hedge : ∀ k : ℕ, k ≤ L / 2 → (k : ℝ) / (L * dt) < fl → 0 < ∑ i ∈ Finset.range S, ‖patternSpec (win L) a L (i * h) k‖ ^ 2 ∧
      ∑ i ∈ Finset.range S, edgeEffect (win L) a L (i * h) m ^ 2 ≤ ρ ^ 2 * ∑ i ∈ Finset.range S, ‖patternSpec (win L) a L (i * h) k‖ ^ 2)
    (hcl : ∀ l, cohLim = some l → l < ((1 - ρ) / (1 + ρ)) ^ 2)
    (hK : 1 ≤ K) (hKL : K ≤ L / 2) (hKf : (K : ℝ) / (L * dt) < fl) (hKlast : K < L / 2 → fl ≤ (K + 1) / (L * dt)) :
    (∃ d mask mc, computeDelaysTf ⟨dt, navgs, ov, win, det⟩ [(u, recordOf a n 0)] [(v, recordOf a n m)] cohLim (some fl) "multi" =
        .ok [(some d, mask, mc)] ∧ |d - m * dt| ≤ ρ * (L * dt) / (2 * K)) ∧
    ∃ d mask mc, computeDelaysTf ⟨dt, navgs, ov, win, det⟩ [(u, recordOf a n 0)] [(v, recordOf a n m)] cohLim (some fl) "fit" =
        .ok [(some d, mask, mc)] ∧ |d - m * dt| ≤ 3 * ρ * (L * dt) / (4 * (2 * K + 1)) := by
  refine frozen_near u v _ _ n navgs L h S K (by simp [recordOf]) (by simp [recordOf]) m dt ov fl ρ win det cohLim hdt hov hL hh hS hρ0 hm ?_ hcl hK hKL hKf hKlast
  intro k hk hkf
  obtain ⟨hP, hE⟩ := hedge k hk hkf
  have hfit : ∀ i ∈ Finset.range S, i * h + L ≤ n := by
    intro i hi
    rw [Finset.mem_range] at hi
    have : i * h ≤ (S - 1) * h := Nat.mul_le_mul_right _ (by omega)
    have := hS.2.2.1
    omega
  have e : ∑ i ∈ Finset.range S, ‖Tf.spectrum (win L) .none (Tf.segment (recordOf a n 0) L (i * h)) k‖ ^ 2 = ∑ i ∈ Finset.range S, ‖patternSpec (win L) a L (i * h) k‖ ^ 2 :=
    Finset.sum_congr rfl fun i hi => by rw [spectrum_pattern _ a n L _ k (hfit i hi)]
  rw [e]
  refine ⟨hP, le_trans (Finset.sum_le_sum fun i hi => ?_) hE⟩
  rw [spectrum_pattern _ a n L _ k (hfit i hi)]
  exact pow_le_pow_left₀ (norm_nonneg _) (spectrum_shift (win L) a n L (i * h) k m (hfit i hi)) 2

/-- A pattern with a peak in the middle of the record and a small one at its end. -/
noncomputable def demoPattern (t : ℤ) : ℝ := if t = 2 then 1 else if t = 5 then 1 / 10 else 0

theorem demo_edge : edgeEffect (List.replicate 6 1) demoPattern 6 0 1 = 1 / 10 := by
  unfold edgeEffect
  rw [show Finset.Ico (-|(1 : ℤ)|) (((6 : ℕ) : ℤ) + |(1 : ℤ)|) = {-1, 0, 1, 2, 3, 4, 5, 6} by decide]
  simp [demoPattern, tap]

theorem demo_spec (k : ℕ) : (9 / 10 : ℝ) ≤ ‖patternSpec (List.replicate 6 1) demoPattern 6 0 k‖ := by
  have h : patternSpec (List.replicate 6 1) demoPattern 6 0 k = twiddle 6 (2 * k) - (-((1 / 10 : ℝ) : ℂ) * twiddle 6 (5 * k)) := by
    unfold patternSpec twiddle
    simp [Finset.sum_range_succ, demoPattern]
  rw [h]
  have := norm_sub_norm_le (twiddle 6 (2 * k)) (-((1 / 10 : ℝ) : ℂ) * twiddle 6 (5 * k))
  rw [norm_mul, norm_twiddle, norm_twiddle, norm_neg, Complex.norm_real] at this
  norm_num at this ⊢
  linarith

example : ∃ d mask mc, computeDelaysTf ⟨1, 1, 0, fun L => List.replicate L 1, .none⟩ [("a", recordOf demoPattern 6 0)] [("b", recordOf demoPattern 6 1)]
    (some 0.3) (some 1) "multi" = .ok [(some d, mask, mc)] ∧ |d - ((1 : ℤ) : ℝ) * 1| ≤ 1 / 4 * (((6 : ℕ) : ℝ) * 1) / (2 * ((3 : ℕ) : ℝ)) := by
  refine (C221_frozen "a" "b" demoPattern 6 1 6 6 1 3 1 1 0 1 (1 / 4) (fun L => List.replicate L 1) .none (some 0.3) one_pos le_rfl rfl
    (by simp) ⟨by norm_num, by norm_num, by norm_num, by norm_num⟩ (by norm_num) (by norm_num) ?_ ?_ (by norm_num) (by norm_num) (by norm_num)
    (by norm_num)).1
  · intro k _ _
    rw [Finset.sum_range_one, Finset.sum_range_one, Nat.zero_mul, demo_edge]
    have := demo_spec k
    constructor
    · positivity
    · nlinarith
  · intro l hl
    cases hl
    norm_num

end SST.Tf
