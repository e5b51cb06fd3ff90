import Verif.Spec.Tf
import Verif.Proofs.Tf

/-! # Helper lemmas: delay from the phase -/

namespace SST.Tf
open SST SST.Dft SST.Corr

theorem zip_dup {α : Type} (l : List α) : l.zip l = l.map fun a => (a, a) := by
  induction l with
  | nil => rfl
  | cons a l ih => simp [ih]

theorem zip_map_map {α β γ : Type} (f : α → β) (g : α → γ) (l : List α) : (l.map f).zip (l.map g) = l.map fun a => (f a, g a) := by
  induction l with
  | nil => rfl
  | cons a l ih => simp [ih]

theorem cohOk_iff (lim : Option ℝ) (r : Row) : CohOk lim r.coh ↔ Coherent lim r := by
  unfold CohOk Coherent
  cases lim with
  | none => simp
  | some l => simp

theorem freqOk_iff (lim : Option ℝ) (r : Row) : FreqOk lim r.f ↔ Below lim r := by
  unfold FreqOk Below
  cases lim with
  | none => simp
  | some l => simp

/-- Argument of a positive multiple of a unit. -/
theorem arg_congr {m : ℝ} (hm : 0 < m) (θ : ℝ) :
    ∃ k : ℤ, Complex.arg (m * Complex.exp (θ * Complex.I)) = θ + 2 * Real.pi * k := by
  set z := (m : ℂ) * Complex.exp (θ * Complex.I) with hz
  have hn : ‖z‖ = m := by rw [hz, norm_mul, Complex.norm_exp_ofReal_mul_I, mul_one, Complex.norm_real, Real.norm_of_nonneg hm.le]
  have h := Complex.norm_mul_exp_arg_mul_I z
  rw [hn] at h
  have hmc : (m : ℂ) ≠ 0 := by exact_mod_cast hm.ne'
  have h2 : Complex.exp ((Complex.arg z : ℝ) * Complex.I) = Complex.exp ((θ : ℝ) * Complex.I) := mul_left_cancel₀ hmc (by rw [h])
  rw [Complex.exp_eq_exp_iff_exists_int] at h2
  obtain ⟨n, hn⟩ := h2
  refine ⟨n, ?_⟩
  have h3 : ((Complex.arg z : ℝ) : ℂ) = ((θ + 2 * Real.pi * n : ℝ) : ℂ) := by
    have : ((Complex.arg z : ℝ) : ℂ) * Complex.I = ((θ + 2 * Real.pi * n : ℝ) : ℂ) * Complex.I := by
      rw [hn]; push_cast; ring
    exact mul_right_cancel₀ Complex.I_ne_zero this
  exact_mod_cast h3

theorem arg_eq {m : ℝ} (hm : 0 < m) {θ : ℝ} (h : |θ| < Real.pi) : Complex.arg (m * Complex.exp (θ * Complex.I)) = θ := by
  rw [Complex.arg_real_mul _ hm, Complex.arg_exp_mul_I, toIocMod_eq_self]
  rw [abs_lt] at h
  constructor <;> [exact h.1; linarith [h.2]]

/-- Unwrapping the phase of bins with a pure delay. -/
theorem unwrap_pure (τ : ℝ) (sub : List Row) (hp : ∀ r ∈ sub, PureDelay τ r) (hs : sub.IsChain (SmallStep τ))
    (h0 : ∀ r, sub.head? = some r → |2 * Real.pi * r.f * τ| < Real.pi) :
    unwrap (sub.map fun r => angle r.tf) = sub.map fun r => some (-(2 * Real.pi * r.f * τ)) := by
  have e1 : (sub.map fun r => angle r.tf) = (sub.map fun r => ((r.tf.map Complex.arg).getD 0)).map some := by
    rw [List.map_map]
    apply List.map_congr_left
    intro r hr
    obtain ⟨m, hm, h⟩ := hp r hr
    simp [angle, h]
  rw [e1, unwrap_some]
  have e2 := unwrapR_track (φ := sub.map fun r => -(2 * Real.pi * r.f * τ)) (p := sub.map fun r => ((r.tf.map Complex.arg).getD 0)) (d := 0) ?_ ?_ ?_
  · rw [e2, List.map_map, List.map_map]
    apply List.map_congr_left
    intro r _; simp
  · rw [List.forall₂_map_left_iff, List.forall₂_map_right_iff, List.forall₂_same]
    intro r hr
    obtain ⟨m, hm, h⟩ := hp r hr
    obtain ⟨k, hk⟩ := arg_congr hm (-(2 * Real.pi * r.f * τ))
    refine ⟨k, ?_⟩
    rw [← hk, h]
    simp
  · rw [List.isChain_map]
    apply hs.imp
    intro a b hab
    unfold SmallStep at hab
    rw [← abs_neg]
    convert hab using 2
    ring
  · intro a b ha hb
    rw [List.head?_map] at ha hb
    cases hh : sub.head? with
    | none => simp [hh] at ha
    | some r =>
      rw [hh] at ha hb
      simp only [Option.map_some, Option.some.injEq] at ha hb
      obtain ⟨m, hm, h⟩ := hp r (List.mem_of_mem_head? hh)
      rw [← ha, ← hb, h, add_zero]
      simp only [Option.map_some, Option.getD_some]
      have := arg_eq hm (θ := -(2 * Real.pi * r.f * τ)) (by rw [abs_neg]; exact h0 r hh)
      rw [← this]
      congr 3
      push_cast; ring

/-- Filtering a list sorted by frequency by an upper limit leaves a prefix. -/
theorem below_prefix (lim : Option ℝ) (rows : List Row) (hs : rows.Pairwise fun a b => a.f < b.f) (p : Row → Bool)
    (hp : ∀ r, p r = true ↔ Below lim r) : rows.filter p <+: rows := by
  induction rows with
  | nil => simp
  | cons r rs ih =>
    rw [List.pairwise_cons] at hs
    by_cases h : p r = true
    · rw [List.filter_cons_of_pos h]
      exact List.prefix_cons_inj r |>.2 (ih hs.2)
    · rw [List.filter_cons_of_neg h]
      have : rs.filter p = [] := by
        rw [List.filter_eq_nil_iff]
        intro r' hr' h'
        apply h
        rw [hp] at h' ⊢
        intro l hl
        exact (hs.1 r' hr').trans (h' l hl)
      rw [this]; exact List.nil_prefix

open Classical in
theorem multiUsed_pure (cohLim freqLim : Option ℝ) (τ : ℝ) (rows : List Row) (hsort : rows.Pairwise fun a b => a.f < b.f)
    (hp : ∀ r ∈ rows, Below freqLim r → PureDelay τ r) (hs : rows.IsChain (SmallStep τ))
    (h0 : ∀ r, rows.head? = some r → |2 * Real.pi * r.f * τ| < Real.pi) :
    multiUsed cohLim freqLim rows = (rows.filter fun r => decide (Coherent cohLim r ∧ Below freqLim r)).map
      fun r => (r.f, -(2 * Real.pi * r.f * τ)) := by
  unfold multiUsed
  simp only [freqOk_iff, cohOk_iff]
  have hpre := below_prefix freqLim rows hsort (fun r => decide (Below freqLim r)) (by simp)
  set sub := rows.filter (fun r => decide (Below freqLim r)) with hsub
  rw [unwrap_pure τ sub]
  · rw [List.zip_map_right, zip_dup, List.map_map, List.filterMap_map]
    have : rows.filter (fun r => decide (Coherent cohLim r ∧ Below freqLim r)) =
        sub.filter (fun r => decide (Coherent cohLim r)) := by
      rw [hsub, List.filter_filter]
      congr 1
      funext r; simp
    rw [this]
    clear_value sub
    clear hsub hpre this
    induction sub with
    | nil => rfl
    | cons r rs ih =>
      by_cases h : Coherent cohLim r
      · simpa [h] using ih
      · simpa [h] using ih
  · intro r hr
    rw [hsub, List.mem_filter] at hr
    exact hp r hr.1 (by simpa using hr.2)
  · exact List.IsChain.prefix hs hpre
  · intro r hr
    apply h0 r
    obtain ⟨t, ht⟩ := hpre
    rw [← ht]
    cases hsub' : sub with
    | nil => rw [hsub'] at hr; simp at hr
    | cons a as => rw [hsub'] at hr; simpa using hr

theorem sum_pos_of {l : List ℝ} (h0 : ∀ v ∈ l, 0 ≤ v) {v : ℝ} (hv : v ∈ l) (hp : 0 < v) : 0 < l.sum :=
  lt_of_lt_of_le hp (List.single_le_sum h0 v hv)

theorem multi_pure (cohLim freqLim : Option ℝ) (τ : ℝ) (rows : List Row) (hsort : rows.Pairwise fun a b => a.f < b.f)
    (hf : ∀ r ∈ rows, 0 ≤ r.f)
    (hp : ∀ r ∈ rows, Below freqLim r → PureDelay τ r) (hs : rows.IsChain (SmallStep τ))
    (h0 : ∀ r, rows.head? = some r → |2 * Real.pi * r.f * τ| < Real.pi)
    (hne : ∃ r ∈ rows, Coherent cohLim r ∧ Below freqLim r ∧ 0 < r.f) :
    multiDelay cohLim freqLim rows = some τ := by
  classical
  obtain ⟨r, hr, hc, hb, hpos⟩ := hne
  unfold multiDelay
  rw [if_neg]
  · simp only [multiUsed_pure cohLim freqLim τ rows hsort hp hs h0, List.map_map]
    set u := rows.filter (fun r => decide (Coherent cohLim r ∧ Below freqLim r)) with hu
    have hru : r ∈ u := by rw [hu, List.mem_filter]; exact ⟨hr, by simp [hc, hb]⟩
    have e1 : (u.map (Prod.fst ∘ fun r => (r.f, -(2 * Real.pi * r.f * τ)))) = u.map Row.f := rfl
    have hs0 : 0 < (u.map Row.f).sum := by
      apply sum_pos_of _ (List.mem_map_of_mem hru) hpos
      intro v hv
      obtain ⟨r', hr', rfl⟩ := List.mem_map.1 hv
      rw [hu, List.mem_filter] at hr'
      exact hf r' hr'.1
    have e2 : (u.map (Prod.snd ∘ fun r => (r.f, -(2 * Real.pi * r.f * τ)))).sum = -(2 * Real.pi * τ) * (u.map Row.f).sum := by
      rw [← List.sum_map_mul_left]
      congr 1
      apply List.map_congr_left
      intro r _; simp only [Function.comp]; ring
    rw [e1, e2, if_neg hs0.ne']
    congr 1
    have := Real.pi_pos
    field_simp
  · intro h
    obtain ⟨m, hm, h2⟩ := hp r hr hb
    rw [h r hr] at h2
    exact absurd h2 (by simp)

open Classical in
theorem fit_pure (cohLim freqLim : Option ℝ) (τ : ℝ) (rows sub : List Row)
    (hsub : sub = rows.filter fun r => decide (Coherent cohLim r ∧ Below freqLim r))
    (hp : ∀ r ∈ sub, PureDelay τ r) (hs : sub.IsChain (SmallStep τ))
    (h0 : ∀ r, sub.head? = some r → |2 * Real.pi * r.f * τ| < Real.pi)
    (hne : ∃ r ∈ sub, r.f ≠ 0) : fitDelay cohLim freqLim rows = some τ := by
  unfold fitDelay
  simp only [freqOk_iff, cohOk_iff]
  rw [← hsub]
  rw [unwrap_pure τ sub hp hs h0]
  obtain ⟨r, hr, hr0⟩ := hne
  rw [if_neg]
  · have e0 : (sub.map fun r => some (-(2 * Real.pi * r.f * τ))).filterMap id = sub.map fun r => -(2 * Real.pi * r.f * τ) := by
      rw [List.filterMap_map]
      clear hsub hp hs h0 hr
      induction sub with
      | nil => rfl
      | cons a as ih => simp [ih]
    have e1 : (sub.map Row.f).zip (sub.map fun r => -(2 * Real.pi * r.f * τ)) = sub.map fun r => (r.f, -(2 * Real.pi * r.f * τ)) := zip_map_map _ _ _
    simp only [e0, e1, List.map_map]
    have hs0 : 0 < (sub.map ((fun p : ℝ × ℝ => p.1 ^ 2) ∘ fun r => (r.f, -(2 * Real.pi * r.f * τ)))).sum := by
      apply sum_pos_of _ (List.mem_map_of_mem hr) (by simp only [Function.comp]; positivity)
      intro v hv
      obtain ⟨r', hr', rfl⟩ := List.mem_map.1 hv
      exact sq_nonneg _
    have e2 : (sub.map ((fun p : ℝ × ℝ => p.1 * p.2) ∘ fun r => (r.f, -(2 * Real.pi * r.f * τ)))).sum =
        -(2 * Real.pi * τ) * (sub.map ((fun p : ℝ × ℝ => p.1 ^ 2) ∘ fun r => (r.f, -(2 * Real.pi * r.f * τ)))).sum := by
      rw [← List.sum_map_mul_left]
      congr 1
      apply List.map_congr_left
      intro r _; simp only [Function.comp]; ring
    rw [if_neg hs0.ne', e2]
    congr 1
    have := Real.pi_pos
    generalize (sub.map ((fun p : ℝ × ℝ => p.1 ^ 2) ∘ fun r => (r.f, -(2 * Real.pi * r.f * τ)))).sum = B at hs0
    field_simp
  · rintro (h | h)
    · rw [h] at hr; simp at hr
    · simp at h

theorem groupDelays_pure (τ : ℝ) (rows : List Row) (hd : rows.Pairwise fun a b => a.f < b.f) :
    groupDelays (rows.map fun r => (r.f, some (-(2 * Real.pi * r.f * τ)))) = List.replicate (rows.length - 1) (some (2 * Real.pi * τ)) := by
  induction rows with
  | nil => rfl
  | cons a rs ih =>
    cases rs with
    | nil => rfl
    | cons b rs =>
      rw [List.pairwise_cons] at hd
      have ih' := ih hd.2
      have hab := hd.1 b (by simp)
      simp only [List.map_cons, groupDelays, List.length_cons, Nat.add_sub_cancel] at ih' ⊢
      rw [ih', List.replicate_succ]
      congr 1
      simp only [Option.bind_some, Option.map_some]
      congr 1
      have : b.f - a.f ≠ 0 := by linarith
      field_simp
      ring

open Classical in
theorem diff_pure (cohLim freqLim : Option ℝ) (τ : ℝ) (rows : List Row) (hsort : rows.Pairwise fun a b => a.f < b.f)
    (hlen : 2 ≤ rows.length) (hp : ∀ r ∈ rows, PureDelay τ r) (hs : rows.IsChain (SmallStep τ))
    (h0 : ∀ r, rows.head? = some r → |2 * Real.pi * r.f * τ| < Real.pi)
    (hne : ∃ r ∈ rows, Coherent cohLim r ∧ Below freqLim r) : diffDelay cohLim freqLim rows = .ok (some τ) := by
  unfold diffDelay
  have e1 : (rows.map Row.f).zip (rows.map fun r => some (-(2 * Real.pi * r.f * τ))) = rows.map fun r => (r.f, some (-(2 * Real.pi * r.f * τ))) := zip_map_map _ _ _
  rw [unwrap_pure τ rows hp hs h0, e1, groupDelays_pure τ rows hsort]
  obtain ⟨n, hn⟩ : ∃ n, rows.length = n + 2 := ⟨rows.length - 2, by omega⟩
  have e2 : (List.replicate (rows.length - 1) (some (2 * Real.pi * τ))).getLast? = some (some (2 * Real.pi * τ)) := by
    rw [hn]; simp [List.getLast?_replicate]
  simp only [e2]
  have e3 : List.replicate (rows.length - 1) (some (2 * Real.pi * τ)) ++ [some (2 * Real.pi * τ)] =
      (List.replicate rows.length (2 * Real.pi * τ)).map some := by
    rw [List.map_replicate, show [some (2 * Real.pi * τ)] = List.replicate 1 (some (2 * Real.pi * τ)) from rfl, List.replicate_append_replicate]
    congr 1; omega
  rw [e3]
  have hcnt : ((maskOf cohLim freqLim rows).filter id).length ≠ 0 := by
    obtain ⟨r, hr, h⟩ := hne
    have : true ∈ (maskOf cohLim freqLim rows).filter id := by
      rw [List.mem_filter]
      refine ⟨?_, rfl⟩
      unfold maskOf
      rw [List.mem_map]
      exact ⟨r, hr, by simp [cohOk_iff, freqOk_iff, h]⟩
    intro h0
    rw [List.length_eq_zero_iff] at h0
    rw [h0] at this; simp at this
  rw [if_neg (by simp [hcnt])]
  have hlen2 : (maskOf cohLim freqLim rows).length = rows.length := by simp [maskOf]
  generalize maskOf cohLim freqLim rows = ix at *
  generalize hN : ((ix.filter id).length) = N at *
  have e4 : ((List.replicate rows.length (2 * Real.pi * τ)).map some).filterMap id = List.replicate rows.length (2 * Real.pi * τ) := by
    simp [List.filterMap_map]
  rw [e4, ← hlen2]
  have key : ∀ ix : List Bool, (((List.replicate ix.length (2 * Real.pi * τ)).zip ix).map fun p : ℝ × Bool =>
      p.1 / (2 * Real.pi) * (if p.2 then 1 else 0) / (N : ℝ)).sum = τ / N * ((ix.filter id).length : ℝ) := by
    intro ix
    induction ix with
    | nil => simp
    | cons b bs ih =>
      have := Real.pi_pos
      simp only [List.length_cons, List.replicate_succ, List.zip_cons_cons, List.map_cons, List.sum_cons, ih]
      cases b
      · simp
      · simp only [if_true, id, List.filter_cons_of_pos, List.length_cons]
        push_cast
        field_simp
        ring
  rw [key ix, hN]
  have : (N : ℝ) ≠ 0 := by exact_mod_cast hcnt
  congr 2
  field_simp

end SST.Tf
