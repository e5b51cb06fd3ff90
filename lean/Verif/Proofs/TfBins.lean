import Verif.Props.RobustTf

/-!
# Delays from bins that agree with a delay
-/

namespace SST.Tf
open SST SST.Dft SST.Corr

private theorem filter_range {N K : ℕ} (h : K < N) : (List.range N).filter (fun k => decide (k ≤ K)) = List.range (K + 1) := by
  obtain ⟨t, rfl⟩ : ∃ t, N = (K + 1) + t := ⟨N - (K + 1), by omega⟩
  rw [List.range_add, List.filter_append, List.filter_eq_self.2, List.filter_eq_nil_iff.2, List.append_nil]
  · intro k hk
    obtain ⟨j, -, rfl⟩ := List.mem_map.1 hk
    simp
    omega
  · intro k hk
    rw [List.mem_range] at hk
    simp
    omega

private theorem sum_first (K : ℕ) (c : ℝ) : ((List.range (K + 1)).map fun (k : ℕ) => (k : ℝ) / c).sum = K * (K + 1) / 2 / c := by
  induction K with
  | zero => simp
  | succ K ih =>
    rw [List.range_succ, List.map_append, List.sum_append, ih]
    simp
    ring

private theorem sum_second (K : ℕ) (c : ℝ) : ((List.range (K + 1)).map fun (k : ℕ) => ((k : ℝ) / c) ^ 2).sum = K * (K + 1) * (2 * K + 1) / 6 / c ^ 2 := by
  induction K with
  | zero => simp
  | succ K ih =>
    rw [List.range_succ, List.map_append, List.sum_append, ih]
    simp
    ring

/-- If the bins of a pair below the frequency limit are coherent and have the phase of a delay `τ` up to `ε`, both fits are close to `τ`. -/
theorem rows_near (u v : String) (x y : List ℝ) (n navgs L K : ℕ) (hx : x.length = n) (τ ε dt ov fl : ℝ) (win : ℕ → List ℝ) (det : Detrend)
    (cohLim : Option ℝ) (hdt : 0 < dt) (hov : 0 ≤ ov) (hL : L = n / navgs) (hovL : ⌊(L : ℝ) * ov⌋₊ < L) (hε : 0 ≤ ε)
    (hτ : |2 * Real.pi * τ / (L * dt)| + 2 * ε < Real.pi)
    (hbin : ∀ r ∈ pairTf ⟨dt, navgs, ov, win, .none⟩ L ⌊(L : ℝ) * ov⌋₊ x y, Below (some fl) r → NearDelay τ ε r ∧ Coherent cohLim r)
    (hK : 1 ≤ K) (hKL : K ≤ L / 2) (hKf : (K : ℝ) / (L * dt) < fl) (hKlast : K < L / 2 → fl ≤ (K + 1) / (L * dt)) :
    (∃ d mask, computeDelaysTf ⟨dt, navgs, ov, win, det⟩ [(u, x)] [(v, y)] cohLim (some fl) "multi" =
        .ok [(some d, mask, meanCoh fl (pairTf ⟨dt, navgs, ov, win, .none⟩ L ⌊(L : ℝ) * ov⌋₊ x y))] ∧ |d - τ| ≤ ε * (L * dt) / (Real.pi * K)) ∧
    ∃ d mask, computeDelaysTf ⟨dt, navgs, ov, win, det⟩ [(u, x)] [(v, y)] cohLim (some fl) "fit" =
        .ok [(some d, mask, meanCoh fl (pairTf ⟨dt, navgs, ov, win, .none⟩ L ⌊(L : ℝ) * ov⌋₊ x y))] ∧
        |d - τ| ≤ 3 * ε * (L * dt) / (2 * Real.pi * (2 * K + 1)) := by
  classical
  set o : Opts := ⟨dt, navgs, ov, win, .none⟩ with ho
  have hL0 : 0 < L := by omega
  have hLR : (0 : ℝ) < L := by exact_mod_cast hL0
  have hLd : (0 : ℝ) < L * dt := by positivity
  have hpi := Real.pi_pos
  have hnav : navgs ≠ 0 := by
    rintro rfl
    simp at hL; omega
  set ovn := ⌊(L : ℝ) * ov⌋₊ with hovn
  have hpy : pyInt ((L : ℝ) * ov) = (ovn : ℤ) := by
    unfold pyInt
    rw [if_pos (by positivity), hovn, Int.natCast_floor_eq_floor (by positivity)]
  set rows := pairTf o L ovn x y with hrows
  have havg : averagedTf o [(u, x)] [(v, y)] = .ok [(u ++ "_" ++ v, rows)] := by
    unfold averagedTf pairCols
    simp only [List.length_singleton, if_true, List.zipWith_cons_cons, List.zipWith_nil_left, List.headD_cons, hx]
    rw [if_neg hnav, ← hL, hpy, if_neg (by omega)]
    simp [hrows]
  have hsort : rows.Pairwise fun a b => a.f < b.f := pairTf_sorted o hdt hL0 ovn _ _
  have hf0 : ∀ r ∈ rows, 0 ≤ r.f := by
    intro r hr
    obtain ⟨k, -, rfl⟩ := pairTf_mem hr
    show (0 : ℝ) ≤ (k : ℝ) / (L * dt); positivity
  have hstep : rows.IsChain (SafeStep τ ε) := by
    apply pairTf_chain
    intro k ra rb h1 h2
    unfold SafeStep
    rw [h1, h2, show o.dt = dt from rfl]
    have e : 2 * Real.pi * (((k : ℝ) + 1) / (L * dt) - k / (L * dt)) * τ = 2 * Real.pi * τ / (L * dt) := by
      field_simp; ring
    rw [e]
    exact hτ
  have hhead : ∀ r, rows.head? = some r → |2 * Real.pi * r.f * τ| + ε < Real.pi := by
    intro r hr
    rw [List.head?_eq_getElem?] at hr
    obtain ⟨-, rfl⟩ := pairTf_getElem hr
    simp
    have := abs_nonneg (2 * Real.pi * τ / (L * dt))
    linarith
  -- the usable bins
  have hbelow : ∀ k : ℕ, k ≤ L / 2 → ((k : ℝ) / (L * dt) < fl ↔ k ≤ K) := by
    intro k hk
    constructor
    · intro h1
      by_contra hc
      have hc' : K + 1 ≤ k := by omega
      have h2 := hKlast (by omega)
      have : ((K : ℝ) + 1) / (L * dt) ≤ k / (L * dt) := by
        apply div_le_div_of_nonneg_right _ hLd.le
        exact_mod_cast hc'
      linarith
    · intro h1
      have : (k : ℝ) / (L * dt) ≤ K / (L * dt) := by
        apply div_le_div_of_nonneg_right _ hLd.le
        exact_mod_cast h1
      linarith
  have hmemU : ∀ r ∈ rows, (Coherent cohLim r ∧ Below (some fl) r) ↔ r.f < fl := by
    intro r hr
    constructor
    · intro h1; exact h1.2 fl rfl
    · intro h1
      have hb : Below (some fl) r := fun l hl => by rw [← Option.some.inj hl]; exact h1
      exact ⟨(hbin r hr hb).2, hb⟩
  have husable : ∃ g : ℕ → Row, (∀ k, (g k).f = k / (L * dt)) ∧ usable cohLim (some fl) rows = (List.range (K + 1)).map g := by
    have e1 : usable cohLim (some fl) rows = rows.filter fun r => decide (r.f < fl) := by
      unfold usable
      apply List.filter_congr
      intro r hr
      simp only [hmemU r hr]
    refine ⟨fun k => ⟨k / (L * o.dt), tfBin (psdScale (o.win L) o.dt L k) (spectra (o.win L) o.detr L ovn (x) k) (spectra (o.win L) o.detr L ovn (y) k),
      cohBin (psdScale (o.win L) o.dt L k) (spectra (o.win L) o.detr L ovn (x) k) (spectra (o.win L) o.detr L ovn (y) k)⟩, fun k => rfl, ?_⟩
    rw [e1, hrows]
    unfold pairTf
    rw [List.filter_map, ← filter_range (show K < L / 2 + 1 by omega)]
    congr 1
    apply List.filter_congr
    intro k hk
    rw [List.mem_range] at hk
    simp only [Function.comp, decide_eq_decide]
    exact hbelow k (by omega)
  obtain ⟨g, hg, hus⟩ := husable
  have hsum1 : ((usable cohLim (some fl) rows).map Row.f).sum = K * (K + 1) / 2 / (L * dt) := by
    rw [hus, List.map_map, ← sum_first]
    congr 1
    apply List.map_congr_left
    intro k _
    exact hg k
  have hsum2 : ((usable cohLim (some fl) rows).map fun r => r.f ^ 2).sum = K * (K + 1) * (2 * K + 1) / 6 / (L * dt) ^ 2 := by
    rw [hus, List.map_map, ← sum_second]
    congr 1
    apply List.map_congr_left
    intro k _
    simp only [Function.comp, hg k]
  have hul : (usable cohLim (some fl) rows).length = K + 1 := by rw [hus]; simp
  have hKR : (1 : ℝ) ≤ K := by exact_mod_cast hK
  have h1mem : g 1 ∈ usable cohLim (some fl) rows := by
    rw [hus]; exact List.mem_map.2 ⟨1, by simp; omega, rfl⟩
  have h1pos : 0 < (g 1).f := by rw [hg]; push_cast; positivity
  have hcompute : ∀ method, (method = "multi" ∨ method = "fit") → ∀ d, (if method = "fit" then fitDelay cohLim (some fl) rows else multiDelay cohLim (some fl) rows) = some d →
      computeDelaysTf ⟨dt, navgs, ov, win, det⟩ [(u, x)] [(v, y)] cohLim (some fl) method =
        .ok [(some d, maskOf cohLim (some fl) rows, meanCoh fl rows)] := by
    intro method hmeth d hd
    unfold computeDelaysTf
    rw [if_neg (by simp)]
    rw [show ({ (⟨dt, navgs, ov, win, det⟩ : Opts) with detr := Detrend.none }) = o from rfl, havg]
    simp only
    rw [if_neg (by simp), if_neg (by tauto)]
    simp only [List.map_cons, List.map_nil, hd]
  constructor
  · obtain ⟨d, hd, hb⟩ := multi_near cohLim (some fl) τ ε rows hsort hf0 (fun r hr hb => (hbin r hr hb).1) (hstep.imp fun _ _ h _ => h) hhead
      (by
        have h2 := h1mem
        unfold usable at h2
        rw [List.mem_filter] at h2
        have h3 := of_decide_eq_true h2.2
        exact ⟨g 1, h2.1, h3.1, h3.2, h1pos⟩)
    refine ⟨d, _, hcompute "multi" (Or.inl rfl) d (by rw [if_neg (by decide)]; exact hd), ?_⟩
    rw [hsum1, hul] at hb
    push_cast at hb
    rw [le_div_iff₀ (by positivity)]
    have h5 : |d - τ| * (2 * Real.pi * (K * (K + 1) / 2 / (L * dt))) = (((K : ℝ) + 1) / (L * dt)) * (|d - τ| * (Real.pi * K)) := by
      field_simp
    have h6 : ((K : ℝ) + 1) * ε = (((K : ℝ) + 1) / (L * dt)) * (ε * (L * dt)) := by
      field_simp
    rw [h5, h6] at hb
    exact le_of_mul_le_mul_left hb (by positivity)
  · have hmem : ∀ r ∈ usable cohLim (some fl) rows, r ∈ rows ∧ Below (some fl) r := by
      intro r hr
      unfold usable at hr
      rw [List.mem_filter] at hr
      exact ⟨hr.1, (of_decide_eq_true hr.2).2⟩
    have hpre : usable cohLim (some fl) rows <+: rows := by
      have e1 : usable cohLim (some fl) rows = rows.filter fun r => decide (Below (some fl) r) := by
        unfold usable
        apply List.filter_congr
        intro r hr
        have := hmemU r hr
        simp only [decide_eq_decide]
        constructor
        · exact fun h => h.2
        · exact fun h => ⟨(hbin r hr h).2, h⟩
      rw [e1]
      exact below_prefix (some fl) rows hsort (fun r => decide (Below (some fl) r)) (by simp)
    obtain ⟨d, hd, hb⟩ := fit_near cohLim (some fl) τ ε rows hf0 (fun r hr => (hbin r (hmem r hr).1 (hmem r hr).2).1)
      (List.IsChain.prefix hstep hpre)
      (by
        intro r hr
        apply hhead r
        obtain ⟨t, ht⟩ := hpre
        rw [← ht]
        cases hc : usable cohLim (some fl) rows with
        | nil => rw [hc] at hr; simp at hr
        | cons c cs => rw [hc] at hr; simpa using hr)
      ⟨g 1, h1mem, h1pos.ne'⟩
    refine ⟨d, _, hcompute "fit" (Or.inr rfl) d (by rw [if_pos rfl]; exact hd), ?_⟩
    rw [hsum1, hsum2] at hb
    rw [le_div_iff₀ (by positivity)]
    have h5 : |d - τ| * (2 * Real.pi * (K * (K + 1) * (2 * K + 1) / 6 / (L * dt) ^ 2)) =
        (((K : ℝ) * (K + 1)) / (6 * (L * dt) ^ 2)) * (|d - τ| * (2 * Real.pi * (2 * K + 1))) := by
      field_simp
    have h6 : ε * ((K : ℝ) * (K + 1) / 2 / (L * dt)) = (((K : ℝ) * (K + 1)) / (6 * (L * dt) ^ 2)) * (3 * ε * (L * dt)) := by
      field_simp
      ring
    rw [h5, h6] at hb
    exact le_of_mul_le_mul_left hb (by positivity)

end SST.Tf
