import Verif.Spec.RobustTf
import Verif.Proofs.TfDelay

/-! # Helper lemmas: delay from an inexact phase -/

namespace SST.Tf
open SST SST.Dft SST.Corr

/-- Unwrapping phases that are known to change by less than half a turn. -/
theorem unwrap_phase (φ : Row → ℝ) (sub : List Row)
    (hp : ∀ r ∈ sub, ∃ m : ℝ, 0 < m ∧ r.tf = some (m * Complex.exp ((φ r : ℝ) * Complex.I)))
    (hs : sub.IsChain fun a b => |φ b - φ a| < Real.pi) (h0 : ∀ r, sub.head? = some r → |φ r| < Real.pi) :
    unwrap (sub.map fun r => angle r.tf) = sub.map fun r => some (φ r) := by
  have e1 : (sub.map fun r => angle r.tf) = (sub.map fun r => ((r.tf.map Complex.arg).getD 0)).map some := by
    rw [List.map_map]
    apply List.map_congr_left
    intro r hr
    obtain ⟨m, hm, h⟩ := hp r hr
    simp [angle, h]
  rw [e1, unwrap_some]
  have e2 := unwrapR_track (φ := sub.map φ) (p := sub.map fun r => ((r.tf.map Complex.arg).getD 0)) (d := 0) ?_ ?_ ?_
  · rw [e2, List.map_map, List.map_map]
    apply List.map_congr_left
    intro r _; simp
  · rw [List.forall₂_map_left_iff, List.forall₂_map_right_iff, List.forall₂_same]
    intro r hr
    obtain ⟨m, hm, h⟩ := hp r hr
    obtain ⟨k, hk⟩ := arg_congr hm (φ r)
    refine ⟨k, ?_⟩
    rw [← hk, h]
    simp
  · rw [List.isChain_map]
    exact hs
  · intro a b ha hb
    rw [List.head?_map] at ha hb
    cases hh : sub.head? with
    | none => simp [hh] at ha
    | some r =>
      rw [hh] at ha hb
      simp only [Option.map_some, Option.some.injEq] at ha hb
      obtain ⟨m, hm, h⟩ := hp r (List.mem_of_mem_head? hh)
      rw [← ha, ← hb, h, add_zero]
      simp only [Option.map_some, Option.getD_some]
      exact arg_eq hm (h0 r hh)

open Classical in
/-- The phase error of a bin. -/
noncomputable def errOf (τ ε : ℝ) (r : Row) : ℝ := if h : NearDelay τ ε r then h.choose_spec.choose else 0

theorem errOf_spec {τ ε : ℝ} {r : Row} (h : NearDelay τ ε r) :
    |errOf τ ε r| ≤ ε ∧ ∃ m : ℝ, 0 < m ∧ r.tf = some (m * Complex.exp ((-(2 * Real.pi * r.f * τ) + errOf τ ε r : ℝ) * Complex.I)) := by
  unfold errOf
  rw [dif_pos h]
  have := h.choose_spec.choose_spec
  exact ⟨this.2.1, _, this.1, this.2.2⟩

theorem unwrap_near (τ ε : ℝ) (sub : List Row) (hp : ∀ r ∈ sub, NearDelay τ ε r) (hs : sub.IsChain (SafeStep τ ε))
    (h0 : ∀ r, sub.head? = some r → |2 * Real.pi * r.f * τ| + ε < Real.pi) :
    unwrap (sub.map fun r => angle r.tf) = sub.map fun r => some (-(2 * Real.pi * r.f * τ) + errOf τ ε r) := by
  apply unwrap_phase (fun r => -(2 * Real.pi * r.f * τ) + errOf τ ε r)
  · intro r hr; exact (errOf_spec (hp r hr)).2
  · clear h0
    induction sub with
    | nil => exact .nil
    | cons a l ih =>
      cases l with
      | nil => exact .singleton _
      | cons b l =>
        rw [List.isChain_cons_cons] at hs ⊢
        refine ⟨?_, ih (fun r hr => hp r (by simp [hr])) hs.2⟩
        have ha := (errOf_spec (hp a (by simp))).1
        have hb := (errOf_spec (hp b (by simp))).1
        have h := hs.1
        unfold SafeStep at h
        rw [abs_le] at ha hb
        have h1 := abs_le.1 (le_refl |2 * Real.pi * (b.f - a.f) * τ|)
        rw [abs_lt]
        constructor <;> nlinarith
  · intro r hr
    have ha := (errOf_spec (hp r (List.mem_of_mem_head? hr))).1
    have h := h0 r hr
    have h1 := abs_le.1 (le_refl |2 * Real.pi * r.f * τ|)
    rw [abs_le] at ha
    rw [abs_lt]
    constructor <;> linarith

theorem sum_err_le (l : List Row) (g e : Row → ℝ) (ε : ℝ) (hg : ∀ r ∈ l, 0 ≤ g r) (he : ∀ r ∈ l, |e r| ≤ ε) :
    |(l.map fun r => g r * e r).sum| ≤ ε * (l.map g).sum := by
  induction l with
  | nil => simp
  | cons a l ih =>
    simp only [List.map_cons, List.sum_cons]
    have h1 := ih (fun r hr => hg r (by simp [hr])) (fun r hr => he r (by simp [hr]))
    have h2 := hg a (by simp)
    have h3 := he a (by simp)
    calc _ ≤ |g a * e a| + |(l.map fun r => g r * e r).sum| := abs_add_le _ _
      _ ≤ g a * ε + ε * (l.map g).sum := by
          rw [abs_mul, abs_of_nonneg h2]
          gcongr
      _ = _ := by ring

theorem multi_near (cohLim freqLim : Option ℝ) (τ ε : ℝ) (rows : List Row) (hsort : rows.Pairwise fun a b => a.f < b.f)
    (hf : ∀ r ∈ rows, 0 ≤ r.f) (hp : ∀ r ∈ rows, Below freqLim r → NearDelay τ ε r)
    (hs : rows.IsChain fun a b => Below freqLim b → SafeStep τ ε a b)
    (h0 : ∀ r, rows.head? = some r → |2 * Real.pi * r.f * τ| + ε < Real.pi)
    (hne : ∃ r ∈ rows, Coherent cohLim r ∧ Below freqLim r ∧ 0 < r.f) :
    ∃ d, multiDelay cohLim freqLim rows = some d ∧
      |d - τ| * (2 * Real.pi * ((usable cohLim freqLim rows).map Row.f).sum) ≤ (usable cohLim freqLim rows).length * ε := by
  classical
  have hpre := below_prefix freqLim rows hsort (fun r => decide (Below freqLim r)) (by simp)
  set sub := rows.filter (fun r => decide (Below freqLim r)) with hsub
  have hmem : ∀ r ∈ sub, r ∈ rows ∧ Below freqLim r := fun r hr => by
    rw [hsub, List.mem_filter] at hr
    exact ⟨hr.1, by simpa using hr.2⟩
  have hsub' : sub.IsChain (SafeStep τ ε) := by
    have h1 := List.IsChain.prefix hs hpre
    have h2 : ∀ l : List Row, (∀ r ∈ l, Below freqLim r) → l.IsChain (fun a b => Below freqLim b → SafeStep τ ε a b) → l.IsChain (SafeStep τ ε) := by
      intro l
      induction l with
      | nil => intro _ _; exact .nil
      | cons a l ih =>
        intro hb hc
        cases l with
        | nil => exact .singleton _
        | cons b l =>
          rw [List.isChain_cons_cons] at hc ⊢
          exact ⟨hc.1 (hb b (by simp)), ih (fun r hr => hb r (by simp [hr])) hc.2⟩
    exact h2 sub (fun r hr => (hmem r hr).2) h1
  have hu : multiUsed cohLim freqLim rows = (usable cohLim freqLim rows).map fun r => (r.f, -(2 * Real.pi * r.f * τ) + errOf τ ε r) := by
    unfold multiUsed usable
    simp only [freqOk_iff, cohOk_iff]
    rw [← hsub, unwrap_near τ ε sub]
    · rw [List.zip_map_right, zip_dup, List.map_map, List.filterMap_map]
      have : rows.filter (fun r => decide (Coherent cohLim r ∧ Below freqLim r)) =
          sub.filter (fun r => decide (Coherent cohLim r)) := by
        rw [hsub, List.filter_filter]
        congr 1
        funext r; simp
      rw [this]
      clear_value sub
      clear hsub hpre this hmem hsub'
      induction sub with
      | nil => rfl
      | cons r rs ih =>
        by_cases h : Coherent cohLim r
        · simpa [h] using ih
        · simpa [h] using ih
    · exact fun r hr => hp r (hmem r hr).1 (hmem r hr).2
    · exact hsub'
    · intro r hr
      apply h0 r
      obtain ⟨t, ht⟩ := hpre
      rw [← ht]
      cases hsub' : sub with
      | nil => rw [hsub'] at hr; simp at hr
      | cons a as => rw [hsub'] at hr; simpa using hr
  obtain ⟨r, hr, hc, hb, hpos⟩ := hne
  unfold multiDelay
  rw [if_neg]
  · simp only [hu, List.map_map]
    have humem : ∀ r ∈ usable cohLim freqLim rows, r ∈ rows ∧ Coherent cohLim r ∧ Below freqLim r := fun r hr => by
      unfold usable at hr
      rw [List.mem_filter] at hr
      exact ⟨hr.1, by simpa using hr.2⟩
    have hru : r ∈ usable cohLim freqLim rows := by unfold usable; rw [List.mem_filter]; exact ⟨hr, by simp [hc, hb]⟩
    set u := usable cohLim freqLim rows with hudef
    have e1 : (u.map (Prod.fst ∘ fun r => (r.f, -(2 * Real.pi * r.f * τ) + errOf τ ε r))) = u.map Row.f := rfl
    have hs0 : 0 < (u.map Row.f).sum := by
      apply sum_pos_of _ (List.mem_map_of_mem hru) hpos
      intro v hv
      obtain ⟨r', hr', rfl⟩ := List.mem_map.1 hv
      exact hf r' (humem r' hr').1
    have e2 : (u.map (Prod.snd ∘ fun r => (r.f, -(2 * Real.pi * r.f * τ) + errOf τ ε r))).sum =
        -(2 * Real.pi * τ) * (u.map Row.f).sum + (u.map (errOf τ ε)).sum := by
      rw [← List.sum_map_mul_left, ← List.sum_map_add]
      congr 1
      apply List.map_congr_left
      intro r _; simp only [Function.comp]; ring
    rw [e1, e2, if_neg hs0.ne']
    refine ⟨_, rfl, ?_⟩
    have hpi := Real.pi_pos
    have h3 := sum_err_le u (fun _ => 1) (errOf τ ε) ε (fun _ _ => zero_le_one)
      (fun r hr => (errOf_spec (hp r (humem r hr).1 (humem r hr).2.2)).1)
    simp only [one_mul, List.map_const', List.sum_replicate, nsmul_eq_mul, mul_one] at h3
    have h4 : (0 : ℝ) < 2 * Real.pi * (u.map Row.f).sum := by positivity
    rw [← abs_of_pos h4, ← abs_mul, abs_of_pos h4]
    have h5 : (-(-(2 * Real.pi * τ) * (u.map Row.f).sum + (u.map (errOf τ ε)).sum) / (2 * Real.pi * (u.map Row.f).sum) - τ) * (2 * Real.pi * (u.map Row.f).sum) =
        -(u.map (errOf τ ε)).sum := by
      field_simp
      ring
    rw [h5, abs_neg]
    linarith
  · intro h
    obtain ⟨m, e, hm, -, h2⟩ := hp r hr hb
    rw [h r hr] at h2
    exact absurd h2 (by simp)

theorem fit_near (cohLim freqLim : Option ℝ) (τ ε : ℝ) (rows : List Row) (hf : ∀ r ∈ rows, 0 ≤ r.f)
    (hp : ∀ r ∈ usable cohLim freqLim rows, NearDelay τ ε r) (hs : (usable cohLim freqLim rows).IsChain (SafeStep τ ε))
    (h0 : ∀ r, (usable cohLim freqLim rows).head? = some r → |2 * Real.pi * r.f * τ| + ε < Real.pi)
    (hne : ∃ r ∈ usable cohLim freqLim rows, r.f ≠ 0) :
    ∃ d, fitDelay cohLim freqLim rows = some d ∧
      |d - τ| * (2 * Real.pi * ((usable cohLim freqLim rows).map fun r => r.f ^ 2).sum) ≤ ε * ((usable cohLim freqLim rows).map Row.f).sum := by
  classical
  have hsub : rows.filter (fun r => decide (CohOk cohLim r.coh ∧ FreqOk freqLim r.f)) = usable cohLim freqLim rows := by
    unfold usable
    simp only [freqOk_iff, cohOk_iff]
  unfold fitDelay
  simp only [hsub]
  rw [unwrap_near τ ε _ hp hs h0]
  have hmem : ∀ r ∈ usable cohLim freqLim rows, r ∈ rows := fun r hr => by
    unfold usable at hr
    exact (List.mem_filter.1 hr).1
  set u := usable cohLim freqLim rows with hu
  obtain ⟨r, hr, hr0⟩ := hne
  rw [if_neg]
  · have e0 : (u.map fun r => some (-(2 * Real.pi * r.f * τ) + errOf τ ε r)).filterMap id = u.map fun r => -(2 * Real.pi * r.f * τ) + errOf τ ε r := by
      rw [List.filterMap_map]
      simp
    have e1 : (u.map Row.f).zip (u.map fun r => -(2 * Real.pi * r.f * τ) + errOf τ ε r) = u.map fun r => (r.f, -(2 * Real.pi * r.f * τ) + errOf τ ε r) := zip_map_map _ _ _
    simp only [e0, e1, List.map_map]
    have e3 : (u.map ((fun p : ℝ × ℝ => p.1 ^ 2) ∘ fun r => (r.f, -(2 * Real.pi * r.f * τ) + errOf τ ε r))) = u.map fun r => r.f ^ 2 := rfl
    have hs0 : 0 < (u.map fun r => r.f ^ 2).sum := by
      apply sum_pos_of _ (List.mem_map_of_mem hr) (by positivity)
      intro v hv
      obtain ⟨r', hr', rfl⟩ := List.mem_map.1 hv
      exact sq_nonneg _
    have e2 : (u.map ((fun p : ℝ × ℝ => p.1 * p.2) ∘ fun r => (r.f, -(2 * Real.pi * r.f * τ) + errOf τ ε r))).sum =
        -(2 * Real.pi * τ) * (u.map fun r => r.f ^ 2).sum + (u.map fun r => r.f * errOf τ ε r).sum := by
      rw [← List.sum_map_mul_left, ← List.sum_map_add]
      congr 1
      apply List.map_congr_left
      intro r _; simp only [Function.comp]; ring
    rw [e3, if_neg hs0.ne', e2]
    refine ⟨_, rfl, ?_⟩
    have hpi := Real.pi_pos
    have h3 := sum_err_le u Row.f (errOf τ ε) ε (fun r hr => hf r (hmem r hr)) (fun r hr => (errOf_spec (hp r hr)).1)
    set B := (u.map fun r => r.f ^ 2).sum with hB
    have h4 : (0 : ℝ) < 2 * Real.pi * B := by positivity
    rw [← abs_of_pos h4, ← abs_mul, abs_of_pos h4]
    have h5 : (-(-(2 * Real.pi * τ) * B + (u.map fun r => r.f * errOf τ ε r).sum) / (2 * Real.pi * B) - τ) * (2 * Real.pi * B) =
        -(u.map fun r => r.f * errOf τ ε r).sum := by
      field_simp
      ring
    rw [h5, abs_neg]
    exact h3
  · rintro (h | h)
    · rw [h] at hr; simp at hr
    · simp at h

theorem groupDelays_near (τ ε Δ : ℝ) (hΔ : 0 < Δ) (φ : Row → ℝ) (rows : List Row) (hφ : ∀ r ∈ rows, |φ r + 2 * Real.pi * r.f * τ| ≤ ε)
    (hd : rows.IsChain fun a b => Δ ≤ b.f - a.f) :
    ∃ gs : List ℝ, groupDelays (rows.map fun r => (r.f, some (φ r))) = gs.map some ∧ gs.length = rows.length - 1 ∧
      ∀ g ∈ gs, |g - 2 * Real.pi * τ| ≤ 2 * ε / Δ := by
  induction rows with
  | nil => exact ⟨[], rfl, rfl, by simp⟩
  | cons a rs ih =>
    cases rs with
    | nil => exact ⟨[], rfl, rfl, by simp⟩
    | cons b rs =>
      rw [List.isChain_cons_cons] at hd
      obtain ⟨gs, h1, h2, h3⟩ := ih (fun r hr => hφ r (by simp [hr])) hd.2
      refine ⟨-(φ b - φ a) / (b.f - a.f) :: gs, ?_, ?_, ?_⟩
      · simp only [List.map_cons, groupDelays] at h1 ⊢
        rw [h1]
        simp
      · simp only [List.length_cons] at h2 ⊢
        omega
      · intro g hg
        rcases List.mem_cons.1 hg with rfl | hg
        · have ha := hφ a (by simp)
          have hb := hφ b (by simp)
          have hpos : 0 < b.f - a.f := lt_of_lt_of_le hΔ hd.1
          have e : -(φ b - φ a) / (b.f - a.f) - 2 * Real.pi * τ = ((φ a + 2 * Real.pi * a.f * τ) - (φ b + 2 * Real.pi * b.f * τ)) / (b.f - a.f) := by
            field_simp
            ring
          rw [e, abs_div, abs_of_pos hpos]
          have h4 : |(φ a + 2 * Real.pi * a.f * τ) - (φ b + 2 * Real.pi * b.f * τ)| ≤ 2 * ε := by
            rw [abs_le] at ha hb ⊢
            constructor <;> linarith
          have hε : 0 ≤ 2 * ε := (abs_nonneg _).trans h4
          exact div_le_div₀ hε h4 hΔ hd.1
        · exact h3 g hg

theorem mean_near (c B : ℝ) (ix : List Bool) (gs : List ℝ) (hl : gs.length = ix.length) (h : ∀ g ∈ gs, |g - c| ≤ B) :
    |((gs.zip ix).map fun p => p.1 * (if p.2 then 1 else 0)).sum - (ix.filter id).length * c| ≤ (ix.filter id).length * B := by
  induction gs generalizing ix with
  | nil =>
    cases ix with
    | nil => simp
    | cons => simp at hl
  | cons g gs ih =>
    cases ix with
    | nil => simp at hl
    | cons b ix =>
      simp only [List.length_cons, Nat.add_right_cancel_iff] at hl
      have ih' := ih ix hl fun g hg => h g (by simp [hg])
      have hg := h g (by simp)
      cases b
      · simpa using ih'
      · simp only [List.zip_cons_cons, List.map_cons, List.sum_cons, if_true, mul_one, id, List.filter_cons_of_pos, List.length_cons]
        push_cast
        rw [abs_le] at hg ih' ⊢
        constructor <;> linarith [hg.1, hg.2, ih'.1, ih'.2]

theorem diff_near (cohLim freqLim : Option ℝ) (τ ε Δ : ℝ) (hΔ : 0 < Δ) (rows : List Row) (hgap : rows.IsChain fun a b => Δ ≤ b.f - a.f)
    (hlen : 2 ≤ rows.length) (hp : ∀ r ∈ rows, NearDelay τ ε r) (hs : rows.IsChain (SafeStep τ ε))
    (h0 : ∀ r, rows.head? = some r → |2 * Real.pi * r.f * τ| + ε < Real.pi)
    (hne : ∃ r ∈ rows, Coherent cohLim r ∧ Below freqLim r) :
    ∃ d, diffDelay cohLim freqLim rows = .ok (some d) ∧ |d - τ| * (Real.pi * Δ) ≤ ε := by
  classical
  unfold diffDelay
  rw [unwrap_near τ ε rows hp hs h0, zip_map_map]
  obtain ⟨gs, hg, hgl, hgb⟩ := groupDelays_near τ ε Δ hΔ (fun r => -(2 * Real.pi * r.f * τ) + errOf τ ε r) rows
    (fun r hr => by
      have := (errOf_spec (hp r hr)).1
      convert this using 2
      ring) hgap
  rw [hg]
  have hgne : gs ≠ [] := by
    intro h; rw [h] at hgl; simp at hgl; omega
  have e2 : (gs.map some).getLast? = some (some (gs.getLast hgne)) := by
    rw [List.getLast?_map, List.getLast?_eq_some_getLast hgne]; rfl
  simp only [e2]
  have e3 : gs.map some ++ [some (gs.getLast hgne)] = (gs ++ [gs.getLast hgne]).map some := by simp
  rw [e3]
  have hcnt : ((maskOf cohLim freqLim rows).filter id).length ≠ 0 := by
    obtain ⟨r, hr, h⟩ := hne
    have : true ∈ (maskOf cohLim freqLim rows).filter id := by
      rw [List.mem_filter]
      refine ⟨?_, rfl⟩
      unfold maskOf
      rw [List.mem_map]
      exact ⟨r, hr, by simp [cohOk_iff, freqOk_iff, h]⟩
    intro h0
    rw [List.length_eq_zero_iff] at h0
    rw [h0] at this; simp at this
  rw [if_neg (by simp [hcnt])]
  refine ⟨_, rfl, ?_⟩
  have hlen2 : (maskOf cohLim freqLim rows).length = rows.length := by simp [maskOf]
  generalize maskOf cohLim freqLim rows = ix at *
  have e4 : ((gs ++ [gs.getLast hgne]).map some).filterMap id = gs ++ [gs.getLast hgne] := by
    simp [List.filterMap_map]
  rw [e4]
  have hall : ∀ g ∈ gs ++ [gs.getLast hgne], |g - 2 * Real.pi * τ| ≤ 2 * ε / Δ := by
    intro g hg
    rcases List.mem_append.1 hg with h | h
    · exact hgb g h
    · rw [List.mem_singleton] at h
      rw [h]; exact hgb _ (List.getLast_mem hgne)
  have hm := mean_near (2 * Real.pi * τ) (2 * ε / Δ) ix _ (by rw [List.length_append, hgl, hlen2]; simp; omega) hall
  set N := (ix.filter id).length with hN
  have hNpos : (0 : ℝ) < N := by
    have : 0 < N := Nat.pos_of_ne_zero hcnt
    exact_mod_cast this
  have e5 : (((gs ++ [gs.getLast hgne]).zip ix).map fun p : ℝ × Bool => p.1 / (2 * Real.pi) * (if p.2 then 1 else 0) / (N : ℝ)).sum =
      (2 * Real.pi * N)⁻¹ * (((gs ++ [gs.getLast hgne]).zip ix).map fun p : ℝ × Bool => p.1 * (if p.2 then 1 else 0)).sum := by
    rw [← List.sum_map_mul_left]
    congr 1
    apply List.map_congr_left
    intro p _
    have := Real.pi_pos
    field_simp
  rw [e5]
  set T := (((gs ++ [gs.getLast hgne]).zip ix).map fun p : ℝ × Bool => p.1 * (if p.2 then 1 else 0)).sum with hT
  have hpi := Real.pi_pos
  have e6 : (2 * Real.pi * N)⁻¹ * T - τ = (2 * Real.pi * N)⁻¹ * (T - N * (2 * Real.pi * τ)) := by
    field_simp
  rw [e6, abs_mul, abs_of_pos (by positivity)]
  calc (2 * Real.pi * N)⁻¹ * |T - N * (2 * Real.pi * τ)| * (Real.pi * Δ) ≤ (2 * Real.pi * N)⁻¹ * (N * (2 * ε / Δ)) * (Real.pi * Δ) := by gcongr
    _ = ε := by field_simp

end SST.Tf
