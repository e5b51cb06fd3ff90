import Verif.Props.InterpPhase
import Verif.Props.TfGains

/-!
# Property C257: `tf_delay` after `apply_delay`
-/

namespace SST.Props.DelayShift
open SST SST.Tf SST.Dft SST.Corr SST.Props.InterpPhase

/-! ## Statement -/

/-- A transfer function (frequencies and values) with its coherences. -/
def withCoh (tf : List (ℝ × ℂ)) (coh : List (Option ℝ)) : List Row := List.zipWith (fun p c => ⟨p.1, some p.2, c⟩) tf coh

/-- Between two bins the phase goes the shorter way round, before and after a delay `τ`: the values are not zero and not opposite, and the
phase step less `2π Δf τ` is below half a turn. -/
def StepOk (τ : ℝ) (a b : Row) : Prop := ∃ z w : ℂ, a.tf = some z ∧ b.tf = some w ∧ z ≠ 0 ∧ w ≠ 0 ∧ Complex.arg (w / z) ≠ Real.pi ∧
  |Complex.arg (w / z) - 2 * Real.pi * (b.f - a.f) * τ| < Real.pi

/-- The phase of the first bin does not leave (-π, π] by the delay; in particular at frequency 0. -/
def StartOk (τ : ℝ) (a : Row) : Prop := ∃ z : ℂ, a.tf = some z ∧ z ≠ 0 ∧ (a.f = 0 ∨ |Complex.arg z - 2 * Real.pi * a.f * τ| < Real.pi)

/-! ## Proof -/

/-- One row after the delay. -/
noncomputable def del (τ : ℝ) (r : Row) : Row := ⟨r.f, r.tf.map fun z => z * Complex.exp (2 * Real.pi * Complex.I * r.f * (-τ)), r.coh⟩

theorem withCoh_delay (tf : List (ℝ × ℂ)) (coh : List (Option ℝ)) (τ : ℝ) :
    withCoh ((tf.map Prod.fst).zip (applyDelay tf τ)) coh = (withCoh tf coh).map (del τ) := by
  unfold withCoh applyDelay
  rw [zip_map_map, List.zipWith_map_left, List.map_zipWith]
  rfl

/-- A phase of a value. -/
def RowPhase (r : Row) (v : ℝ) : Prop := ∃ z : ℂ, r.tf = some z ∧ z ≠ 0 ∧ PhaseOf (r.f, z) v

theorem phase_arg {f : ℝ} {z : ℂ} (hz : z ≠ 0) {v : ℝ} (h : PhaseOf (f, z) v) : ∃ k : ℤ, Complex.arg z = v + 2 * Real.pi * k := by
  have hn : 0 < ‖z‖ := norm_pos_iff.2 hz
  have h1 : z = (‖z‖ : ℝ) * Complex.exp ((v : ℝ) * Complex.I) := by
    unfold PhaseOf at h
    rw [mul_comm Complex.I] at h
    exact h.symm
  obtain ⟨k, hk⟩ := arg_congr hn v
  rw [← h1] at hk
  exact ⟨k, hk⟩

/-- The argument of a row. -/
noncomputable def argOf (r : Row) : ℝ := (r.tf.map Complex.arg).getD 0

theorem exp_real (f τ : ℝ) : Complex.exp (2 * Real.pi * Complex.I * f * (-τ)) = Complex.exp ((-(2 * Real.pi * f * τ) : ℝ) * Complex.I) := by
  congr 1; push_cast; ring

theorem arg_del {τ : ℝ} {r : Row} {v : ℝ} (h : RowPhase r v) : ∃ k : ℤ, argOf (del τ r) = v - 2 * Real.pi * r.f * τ + 2 * Real.pi * k := by
  obtain ⟨z, hz, h0, hp⟩ := h
  have hn : 0 < ‖z‖ := norm_pos_iff.2 h0
  have h1 : z * Complex.exp (2 * Real.pi * Complex.I * r.f * (-τ)) = (‖z‖ : ℝ) * Complex.exp ((v - 2 * Real.pi * r.f * τ : ℝ) * Complex.I) := by
    unfold PhaseOf at hp
    simp only at hp
    rw [exp_real]
    conv_lhs => rw [← hp]
    rw [mul_assoc, ← Complex.exp_add]
    congr 2
    push_cast; ring
  obtain ⟨k, hk⟩ := arg_congr hn (v - 2 * Real.pi * r.f * τ)
  refine ⟨k, ?_⟩
  unfold argOf del
  rw [hz]
  simp only [Option.map_some, Option.getD_some]
  rw [h1, hk]

theorem steps {τ : ℝ} {s : List Row} {u : List ℝ} (hp : List.Forall₂ RowPhase s u) (hu : u.IsChain fun a b => |b - a| ≤ Real.pi) (hs : s.IsChain (StepOk τ)) :
    (List.zipWith (fun r v => v - 2 * Real.pi * r.f * τ) s u).IsChain fun a b => |b - a| < Real.pi := by
  induction hp with
  | nil => exact List.IsChain.nil
  | @cons a va s u ha hp ih =>
    cases hp with
    | nil => exact List.isChain_singleton _
    | @cons b vb s u hb hp =>
      rw [List.isChain_cons_cons] at hu hs
      simp only [List.zipWith_cons_cons] at ih ⊢
      rw [List.isChain_cons_cons]
      refine ⟨?_, ih hu.2 hs.2⟩
      obtain ⟨z, hz, hz0, hpz⟩ := ha
      obtain ⟨w, hw, hw0, hpw⟩ := hb
      obtain ⟨z', w', e1, e2, -, -, hne, hlt⟩ := hs.1
      rw [hz] at e1
      rw [hw] at e2
      cases e1; cases e2
      have := step_arg hpz hpw hz0 hw0 hu.1 hne
      simp only at this
      rw [← this] at hlt
      convert hlt using 2
      ring

/-- Unwrapping after the delay: each phase is turned by `-2π f τ`. -/
theorem unwrapR_del {τ : ℝ} {s : List Row} (hz : ∀ r ∈ s, ∃ z : ℂ, r.tf = some z ∧ z ≠ 0) (hs : s.IsChain (StepOk τ)) (h0 : ∀ r, s.head? = some r → StartOk τ r) :
    unwrapR ((s.map (del τ)).map argOf) = List.zipWith (fun r v => v - 2 * Real.pi * r.f * τ) s (unwrapR (s.map argOf)) := by
  have hph : List.Forall₂ RowPhase s (unwrapR (s.map argOf)) := by
    have h := unwrapR_congr (s.map argOf)
    rw [List.forall₂_map_left_iff] at h
    have h' : List.Forall₂ (fun (r : Row) v => r ∈ s ∧ ∃ k : ℤ, v = argOf r + 2 * Real.pi * k) s (unwrapR (s.map argOf)) := by
      rw [List.forall₂_iff_get] at h ⊢
      exact ⟨h.1, fun i h1 h2 => ⟨List.get_mem _ _, h.2 i h1 h2⟩⟩
    refine h'.imp ?_
    rintro r v ⟨hr, k, rfl⟩
    obtain ⟨z, hz, hz0⟩ := hz r hr
    refine ⟨z, hz, hz0, ?_⟩
    unfold PhaseOf argOf
    rw [hz]
    simp only [Option.map_some, Option.getD_some]
    have : Complex.exp (Complex.I * ((Complex.arg z + 2 * Real.pi * k : ℝ) : ℂ)) = Complex.exp (Complex.arg z * Complex.I) := by
      rw [Complex.exp_eq_exp_iff_exists_int]
      exact ⟨k, by push_cast; ring⟩
    rw [this, Complex.norm_mul_exp_arg_mul_I]
  have key := unwrapR_track (φ := List.zipWith (fun r v => v - 2 * Real.pi * r.f * τ) s (unwrapR (s.map argOf))) (p := (s.map (del τ)).map argOf) (d := 0) ?_
    (steps hph (unwrapR_chain _) hs) ?_
  · rw [key]; simp
  · rw [List.map_map]
    have hl := hph.length_eq
    rw [List.forall₂_iff_get] at hph ⊢
    refine ⟨by simp [hl], ?_⟩
    intro i h1 h2
    have hi : i < s.length := by simpa using h2
    obtain ⟨k, hk⟩ := arg_del (τ := τ) (hph.2 i hi (by omega))
    refine ⟨k, ?_⟩
    simpa using hk
  · intro a b ha hb
    cases s with
    | nil => simp at hb
    | cons r s =>
      simp [unwrapR] at ha hb
      obtain ⟨z, hz, hz0, hstart⟩ := h0 r rfl
      rw [← ha, ← hb]
      unfold argOf del
      rw [hz]
      simp only [Option.map_some, Option.getD_some, add_zero]
      rcases hstart with hf | hlt
      · rw [hf]; simp
      · have hn : 0 < ‖z‖ := norm_pos_iff.2 hz0
        rw [← arg_eq hn hlt, exp_real]
        congr 1
        conv_lhs => rw [← Complex.norm_mul_exp_arg_mul_I z]
        rw [mul_assoc, ← Complex.exp_add]
        congr 2
        push_cast; ring

theorem angles {s : List Row} (hz : ∀ r ∈ s, ∃ z : ℂ, r.tf = some z ∧ z ≠ 0) : (s.map fun r => angle r.tf) = (s.map argOf).map some := by
  rw [List.map_map]
  apply List.map_congr_left
  intro r hr
  obtain ⟨z, hz, -⟩ := hz r hr
  simp [argOf, hz, angle]

theorem del_some {τ : ℝ} {s : List Row} (hz : ∀ r ∈ s, ∃ z : ℂ, r.tf = some z ∧ z ≠ 0) : ∀ r ∈ s.map (del τ), ∃ z : ℂ, r.tf = some z ∧ z ≠ 0 := by
  rw [List.forall_mem_map]
  intro r hr
  obtain ⟨z, hz, h0⟩ := hz r hr
  exact ⟨_, by unfold del; rw [hz]; rfl, mul_ne_zero h0 (Complex.exp_ne_zero _)⟩

/-- The unwrapped phases before and after. -/
theorem unwrap_del {τ : ℝ} {s : List Row} (hz : ∀ r ∈ s, ∃ z : ℂ, r.tf = some z ∧ z ≠ 0) (hs : s.IsChain (StepOk τ)) (h0 : ∀ r, s.head? = some r → StartOk τ r) :
    ∃ u : List ℝ, u.length = s.length ∧ unwrap (s.map fun r => angle r.tf) = u.map some ∧
      unwrap ((s.map (del τ)).map fun r => angle r.tf) = (List.zipWith (fun r v => v - 2 * Real.pi * r.f * τ) s u).map some := by
  refine ⟨unwrapR (s.map argOf), by rw [unwrapR_length, List.length_map], ?_, ?_⟩
  · rw [angles hz, unwrap_some]
  · rw [angles (del_some hz), unwrap_some, unwrapR_del hz hs h0]

theorem withCoh_some {tf : List (ℝ × ℂ)} {coh : List (Option ℝ)} : ∀ r ∈ withCoh tf coh, ∃ z : ℂ, r.tf = some z := by
  intro r hr
  unfold withCoh at hr
  rw [List.mem_iff_getElem] at hr
  obtain ⟨i, hi, rfl⟩ := hr
  exact ⟨_, by rw [List.getElem_zipWith]⟩

/-! ## Sums -/

theorem sum_shift (l : List (ℝ × ℝ)) (w : ℝ × ℝ → ℝ) (τ : ℝ) (hw : ∀ p : ℝ × ℝ, ∀ c, w (p.1, p.2 - c) = w p) :
    ((l.map fun p => (p.1, p.2 - 2 * Real.pi * p.1 * τ)).map fun p => w p * p.2).sum = (l.map fun p => w p * p.2).sum - 2 * Real.pi * τ * (l.map fun p => w p * p.1).sum := by
  induction l with
  | nil => simp
  | cons p l ih =>
    simp only [List.map_cons, List.sum_cons]
    rw [ih, hw]
    ring

/-- Pairs of frequency and phase, from zipped rows. -/
theorem zip_shift (s : List Row) (u : List ℝ) (τ : ℝ) :
    (s.map Row.f).zip (List.zipWith (fun r v => v - 2 * Real.pi * r.f * τ) s u) = ((s.map Row.f).zip u).map fun p => (p.1, p.2 - 2 * Real.pi * p.1 * τ) := by
  induction s generalizing u with
  | nil => rfl
  | cons r s ih =>
    cases u with
    | nil => rfl
    | cons v u => simp [ih u]

/-! ## Methods -/

open Classical in
theorem multiUsed_del {cl fl : Option ℝ} {τ : ℝ} {rows : List Row} (hz : ∀ r ∈ rows, Below fl r → ∃ z : ℂ, r.tf = some z ∧ z ≠ 0)
    (hs : (rows.filter fun r => decide (Below fl r)).IsChain (StepOk τ)) (h0 : ∀ r, (rows.filter fun r => decide (Below fl r)).head? = some r → StartOk τ r) :
    multiUsed cl fl (rows.map (del τ)) = (multiUsed cl fl rows).map fun p => (p.1, p.2 - 2 * Real.pi * p.1 * τ) := by
  have hf : (rows.filter fun r => decide (FreqOk fl r.f)) = rows.filter fun r => decide (Below fl r) := by
    congr 1; funext r; exact decide_eq_decide.2 (freqOk_iff fl r)
  obtain ⟨u, hl, h1, h2⟩ := unwrap_del (s := rows.filter fun r => decide (Below fl r)) (τ := τ)
    (fun r hr => hz r (List.mem_filter.1 hr).1 (of_decide_eq_true (List.mem_filter.1 hr).2)) hs h0
  unfold multiUsed
  have hf' : ((rows.map (del τ)).filter fun r => decide (FreqOk fl r.f)) = (rows.filter fun r => decide (Below fl r)).map (del τ) := by
    rw [List.filter_map, ← hf]; rfl
  simp only [hf, hf', h1, h2]
  generalize (rows.filter fun r => decide (Below fl r)) = s
  clear hs h0 hf hf' h1 h2 hl hz
  induction s generalizing u with
  | nil => rfl
  | cons r s ih =>
    cases u with
    | nil => rfl
    | cons v u =>
      simp only [List.map_cons, List.zipWith_cons_cons, List.zip_cons_cons, List.filterMap_cons]
      rw [ih u]
      by_cases hc : CohOk cl r.coh
      · have hc' : CohOk cl (del τ r).coh := hc
        simp only [hc, hc', if_true, Option.map_some, List.map_cons]
        rfl
      · have hc' : ¬ CohOk cl (del τ r).coh := hc
        simp only [hc, hc', if_false]

theorem multi_del {cl fl : Option ℝ} {τ d : ℝ} {rows : List Row} (hz : ∀ r ∈ rows, Below fl r → ∃ z : ℂ, r.tf = some z ∧ z ≠ 0)
    (hs : open Classical in (rows.filter fun r => decide (Below fl r)).IsChain (StepOk τ))
    (h0 : open Classical in ∀ r, (rows.filter fun r => decide (Below fl r)).head? = some r → StartOk τ r)
    (hf : ∀ r ∈ rows, 0 ≤ r.f) (hne : ∃ r ∈ rows, Coherent cl r ∧ Below fl r ∧ 0 < r.f)
    (hd : multiDelay cl fl rows = some d) : multiDelay cl fl (rows.map (del τ)) = some (d + τ) := by
  classical
  have hpi := Real.pi_pos
  have hnn : ¬ ∀ r ∈ rows, r.tf = none := by
    obtain ⟨r, hr, -, hb, -⟩ := hne
    obtain ⟨z, hz, -⟩ := hz r hr hb
    intro h
    rw [h r hr] at hz
    cases hz
  have hnn' : ¬ ∀ r ∈ rows.map (del τ), r.tf = none := by
    rw [List.forall_mem_map]
    intro h
    apply hnn
    intro r hr
    have := h r hr
    unfold del at this
    simpa using this
  have hu := multiUsed_del (cl := cl) hz hs h0
  unfold multiDelay at hd ⊢
  rw [if_neg hnn] at hd
  rw [if_neg hnn', hu]
  have hb : 0 < ((multiUsed cl fl rows).map Prod.fst).sum := by
    obtain ⟨r, hr, hc, hbl, hpos⟩ := hne
    have hmem : ∃ φ, (r.f, φ) ∈ multiUsed cl fl rows := by
      obtain ⟨u, hl, h1, -⟩ := unwrap_del (s := rows.filter fun r => decide (Below fl r)) (τ := τ)
        (fun r hr => hz r (List.mem_filter.1 hr).1 (of_decide_eq_true (List.mem_filter.1 hr).2)) hs h0
      have hf : (rows.filter fun r => decide (FreqOk fl r.f)) = rows.filter fun r => decide (Below fl r) := by
        congr 1; funext r; exact decide_eq_decide.2 (freqOk_iff fl r)
      have hrm : r ∈ rows.filter fun r => decide (Below fl r) := List.mem_filter.2 ⟨hr, decide_eq_true hbl⟩
      obtain ⟨i, hi, hri⟩ := List.getElem_of_mem hrm
      refine ⟨u[i]'(by omega), ?_⟩
      unfold multiUsed
      simp only [hf, h1]
      rw [List.mem_filterMap]
      refine ⟨(r, some (u[i]'(by omega))), ?_, ?_⟩
      · rw [List.mem_iff_getElem]
        exact ⟨i, by simp; omega, by simp [hri]⟩
      · simp only [(cohOk_iff cl r).2 hc, if_true, Option.map_some]
    obtain ⟨φ, hφ⟩ := hmem
    refine sum_pos_of ?_ (List.mem_map_of_mem hφ) hpos
    intro v hv
    obtain ⟨q, hq, rfl⟩ := List.mem_map.1 hv
    unfold multiUsed at hq
    rw [List.mem_filterMap] at hq
    obtain ⟨⟨r', φ'⟩, hq1, hq2⟩ := hq
    have hr' : r' ∈ rows := (List.mem_filter.1 (List.of_mem_zip hq1).1).1
    split_ifs at hq2
    obtain ⟨ψ, -, rfl⟩ := Option.map_eq_some_iff.1 hq2
    exact hf r' hr'
  have e1 : ((multiUsed cl fl rows).map fun p => (p.1, p.2 - 2 * Real.pi * p.1 * τ)).map Prod.fst = (multiUsed cl fl rows).map Prod.fst := by
    rw [List.map_map]; rfl
  have e2 := sum_shift (multiUsed cl fl rows) (fun _ => 1) τ (fun _ _ => rfl)
  simp only [one_mul] at e2
  simp only [hb.ne', if_false, Option.some.injEq] at hd
  simp only [e1, hb.ne', if_false, Option.some.injEq]
  rw [← hd]
  rw [show (List.map Prod.snd ((multiUsed cl fl rows).map fun p => (p.1, p.2 - 2 * Real.pi * p.1 * τ))).sum = _ from e2]
  have : (multiUsed cl fl rows).map (fun p => p.1) = (multiUsed cl fl rows).map Prod.fst := rfl
  have h3 : (multiUsed cl fl rows).map (fun p => p.2) = (multiUsed cl fl rows).map Prod.snd := rfl
  rw [this, h3]
  field_simp
  ring

theorem fit_del {cl fl : Option ℝ} {τ d : ℝ} {rows sub : List Row} (hsub : open Classical in sub = rows.filter fun r => decide (Coherent cl r ∧ Below fl r))
    (hz : ∀ r ∈ sub, ∃ z : ℂ, r.tf = some z ∧ z ≠ 0) (hs : sub.IsChain (StepOk τ)) (h0 : ∀ r, sub.head? = some r → StartOk τ r) (hne : ∃ r ∈ sub, r.f ≠ 0)
    (hd : fitDelay cl fl rows = some d) : fitDelay cl fl (rows.map (del τ)) = some (d + τ) := by
  classical
  have hpi := Real.pi_pos
  have hf : (rows.filter fun r => decide (CohOk cl r.coh ∧ FreqOk fl r.f)) = sub := by
    rw [hsub]
    congr 1; funext r
    exact decide_eq_decide.2 (and_congr (cohOk_iff cl r) (freqOk_iff fl r))
  have hf' : ((rows.map (del τ)).filter fun r => decide (CohOk cl r.coh ∧ FreqOk fl r.f)) = sub.map (del τ) := by
    rw [List.filter_map, ← hf]; rfl
  obtain ⟨u, hl, h1, h2⟩ := unwrap_del hz hs h0
  have hsne : sub ≠ [] := by
    obtain ⟨r, hr, -⟩ := hne
    exact List.ne_nil_of_mem hr
  have hfm : ∀ l : List ℝ, (l.map some).filterMap id = l := by intro l; simp [List.filterMap_map]
  unfold fitDelay at hd ⊢
  simp only [hf, hf', h1, h2, hfm, List.map_eq_nil_iff, hsne, false_or] at hd ⊢
  rw [if_neg (by simp)] at hd
  rw [if_neg (by intro h; obtain ⟨a, -, ha⟩ := List.mem_map.1 h; cases ha)]
  have hfs : (sub.map (del τ)).map Row.f = sub.map Row.f := by rw [List.map_map]; rfl
  rw [hfs, zip_shift]
  have e1 : ((((sub.map Row.f).zip u).map fun p => (p.1, p.2 - 2 * Real.pi * p.1 * τ)).map fun p => p.1 ^ 2) = ((sub.map Row.f).zip u).map fun p => p.1 ^ 2 := by
    rw [List.map_map]; rfl
  have hb : 0 < (((sub.map Row.f).zip u).map fun p => p.1 ^ 2).sum := by
    obtain ⟨r, hr, hr0⟩ := hne
    obtain ⟨i, hi, hri⟩ := List.getElem_of_mem hr
    refine sum_pos_of (v := r.f ^ 2) ?_ ?_ (by positivity)
    · intro v hv
      obtain ⟨q, -, rfl⟩ := List.mem_map.1 hv
      positivity
    · rw [List.mem_map]
      refine ⟨(r.f, u[i]'(by omega)), ?_, rfl⟩
      rw [List.mem_iff_getElem]
      exact ⟨i, by simp; omega, by simp [hri]⟩
  have e2 := sum_shift ((sub.map Row.f).zip u) (fun p => p.1) τ (fun _ _ => rfl)
  rw [e1]
  simp only [hb.ne', if_false, Option.some.injEq] at hd ⊢
  rw [← hd, e2]
  have : ((sub.map Row.f).zip u).map (fun p => p.1 * p.1) = ((sub.map Row.f).zip u).map fun p => p.1 ^ 2 := by
    apply List.map_congr_left; intro p _; ring
  rw [this]
  field_simp
  ring

/-- Group delays of known phases. -/
noncomputable def gds : List (ℝ × ℝ) → List ℝ
  | a :: b :: rest => -(b.2 - a.2) / (b.1 - a.1) :: gds (b :: rest)
  | _ => []

theorem groupDelays_some : ∀ l : List (ℝ × ℝ), groupDelays (l.map fun p => (p.1, some p.2)) = (gds l).map some
  | [] => rfl
  | [_] => rfl
  | a :: b :: rest => by
    have := groupDelays_some (b :: rest)
    simp only [List.map_cons] at this ⊢
    simp only [groupDelays, gds, List.map_cons, this]
    rfl

theorem gds_shift (τ : ℝ) : ∀ l : List (ℝ × ℝ), l.IsChain (fun a b => a.1 ≠ b.1) → gds (l.map fun p => (p.1, p.2 - 2 * Real.pi * p.1 * τ)) = (gds l).map fun v => v + 2 * Real.pi * τ
  | [], _ => rfl
  | [_], _ => rfl
  | a :: b :: rest, h => by
    rw [List.isChain_cons_cons] at h
    have := gds_shift τ (b :: rest) h.2
    simp only [List.map_cons] at this ⊢
    simp only [gds, List.map_cons, this]
    congr 1
    have : b.1 - a.1 ≠ 0 := sub_ne_zero.2 (Ne.symm h.1)
    field_simp
    ring

theorem gds_length : ∀ l : List (ℝ × ℝ), (gds l).length = l.length - 1
  | [] => rfl
  | [_] => rfl
  | _ :: b :: rest => by
    have := gds_length (b :: rest)
    simp only [gds, List.length_cons] at this ⊢
    omega

theorem mean_shift (c K : ℝ) : ∀ (g : List ℝ) (ix : List Bool), g.length = ix.length →
    (((g.map fun v => v + 2 * Real.pi * c).zip ix).map fun p => p.1 / (2 * Real.pi) * (if p.2 then 1 else 0) / K).sum =
      ((g.zip ix).map fun p => p.1 / (2 * Real.pi) * (if p.2 then 1 else 0) / K).sum + c * ((ix.filter id).length / K)
  | [], [], _ => by simp
  | [], _ :: _, h => by simp at h
  | _ :: _, [], h => by simp at h
  | v :: g, b :: ix, h => by
    have ih := mean_shift c K g ix (by simpa using h)
    have hpi := Real.pi_pos
    simp only [List.map_cons, List.zip_cons_cons, List.sum_cons, ih]
    cases b with
    | false => simp
    | true =>
      simp only [List.filter_cons, id, if_true, List.length_cons]
      push_cast
      field_simp
      ring

theorem diff_del {cl fl : Option ℝ} {τ d : ℝ} {rows : List Row} (hz : ∀ r ∈ rows, ∃ z : ℂ, r.tf = some z ∧ z ≠ 0) (hs : rows.IsChain (StepOk τ))
    (h0 : ∀ r, rows.head? = some r → StartOk τ r) (hf : rows.IsChain fun a b => a.f ≠ b.f)
    (hd : diffDelay cl fl rows = .ok (some d)) : diffDelay cl fl (rows.map (del τ)) = .ok (some (d + τ)) := by
  classical
  obtain ⟨u, hl, h1, h2⟩ := unwrap_del hz hs h0
  have hfs : (rows.map (del τ)).map Row.f = rows.map Row.f := by rw [List.map_map]; rfl
  have hix : maskOf cl fl (rows.map (del τ)) = maskOf cl fl rows := by
    unfold maskOf
    rw [List.map_map]; rfl
  have hixl : (maskOf cl fl rows).length = rows.length := by unfold maskOf; simp
  have hzip : ∀ w : List ℝ, (rows.map Row.f).zip (w.map some) = ((rows.map Row.f).zip w).map fun p => (p.1, some p.2) := by
    intro w
    rw [List.zip_map_right]
    apply List.map_congr_left
    rintro ⟨a, b⟩ -
    rfl
  have hch : ((rows.map Row.f).zip u).IsChain fun a b => a.1 ≠ b.1 := by
    have hm : (((rows.map Row.f).zip u).map Prod.fst).IsChain fun a b => a ≠ b := by
      rw [List.map_fst_zip (by simp; omega), List.isChain_map]
      exact hf
    rwa [List.isChain_map] at hm
  have hfm : ∀ l : List ℝ, (l.map some).filterMap id = l := by intro l; simp [List.filterMap_map]
  unfold diffDelay at hd ⊢
  simp only [h1, hzip, groupDelays_some] at hd
  simp only [h2, hfs, hix, hzip, groupDelays_some, zip_shift, gds_shift τ _ hch]
  rw [List.getLast?_map] at hd
  rw [List.getLast?_map, List.getLast?_map]
  cases hg : (gds ((rows.map Row.f).zip u)).getLast? with
  | none => rw [hg] at hd; cases hd
  | some last =>
    rw [hg] at hd
    simp only [Option.map_some] at hd ⊢
    have hlen : (gds ((rows.map Row.f).zip u) ++ [last]).length = (maskOf cl fl rows).length := by
      rw [hixl, List.length_append, gds_length, List.length_zip, List.length_map, hl, min_self]
      have : gds ((rows.map Row.f).zip u) ≠ [] := by intro h; rw [h] at hg; cases hg
      have := List.length_pos_of_ne_nil this
      rw [gds_length, List.length_zip, List.length_map, hl, min_self] at this
      simp only [List.length_singleton]
      omega
    rw [show (gds ((rows.map Row.f).zip u)).map some ++ [some last] = (gds ((rows.map Row.f).zip u) ++ [last]).map some by simp, hfm] at hd
    rw [show ((gds ((rows.map Row.f).zip u)).map fun v => v + 2 * Real.pi * τ).map some ++ [some (last + 2 * Real.pi * τ)] =
      ((gds ((rows.map Row.f).zip u) ++ [last]).map fun v => v + 2 * Real.pi * τ).map some by simp, hfm]
    by_cases hc : ((maskOf cl fl rows).filter id).length = 0
    · rw [if_pos (Or.inr hc)] at hd
      cases hd
    · have hnn : ∀ l : List ℝ, none ∉ l.map some := by
        intro l h; obtain ⟨a, -, ha⟩ := List.mem_map.1 h; cases ha
      rw [if_neg (not_or.2 ⟨hnn _, hc⟩)] at hd ⊢
      simp only [Except.ok.injEq, Option.some.injEq] at hd ⊢
      rw [mean_shift τ _ _ _ hlen, hd, div_self (Nat.cast_ne_zero.2 hc), mul_one]

theorem mask_del (cl fl : Option ℝ) (rows : List Row) (τ : ℝ) : maskOf cl fl (rows.map (del τ)) = maskOf cl fl rows := by
  unfold maskOf
  rw [List.map_map]; rfl

/-! ## C257 -/

open Classical in
/-- C257 (method 'multi'): `tf_delay` of a transfer function turned by `apply_delay(tf, τ)` is the delay of the transfer function plus τ, with
the same mask.  The phase must not be ambiguous in the bins below the frequency limit, and some usable bin has a positive frequency. -/
theorem C257_multi (tf : List (ℝ × ℂ)) (coh : List (Option ℝ)) (cl fl : Option ℝ) (τ d : ℝ) (ix : List (List Bool))
    (hz : ∀ r ∈ withCoh tf coh, Below fl r → r.tf ≠ some 0)
    (hs : ((withCoh tf coh).filter fun r => decide (Below fl r)).IsChain (StepOk τ))
    (h0 : ∀ r, ((withCoh tf coh).filter fun r => decide (Below fl r)).head? = some r → StartOk τ r)
    (hf : ∀ r ∈ withCoh tf coh, 0 ≤ r.f) (hne : ∃ r ∈ withCoh tf coh, Coherent cl r ∧ Below fl r ∧ 0 < r.f)
    (hd : tfDelay [withCoh tf coh] cl fl "multi" = .ok ([some d], ix)) :
    tfDelay [withCoh ((tf.map Prod.fst).zip (applyDelay tf τ)) coh] cl fl "multi" = .ok ([some (d + τ)], ix) := by
  rw [withCoh_delay]
  unfold tfDelay at hd ⊢
  simp only [show ("multi" = "diff") = False from by simp, show ("multi" = "fit") = False from by simp, if_false, if_true, List.map_cons, List.map_nil, Except.ok.injEq,
    Prod.mk.injEq, List.cons.injEq, and_true] at hd ⊢
  refine ⟨multi_del (fun r hr hb => ?_) hs h0 hf hne hd.1, ?_⟩
  · obtain ⟨z, hzz⟩ := withCoh_some r hr
    exact ⟨z, hzz, fun h => hz r hr hb (by rw [hzz, h])⟩
  · rw [mask_del]; exact hd.2

open Classical in
/-- C257 (method 'fit'). -/
theorem C257_fit (tf : List (ℝ × ℂ)) (coh : List (Option ℝ)) (cl fl : Option ℝ) (τ d : ℝ) (ix : List (List Bool))
    (sub : List Row) (hsub : sub = (withCoh tf coh).filter fun r => decide (Coherent cl r ∧ Below fl r))
    (hz : ∀ r ∈ sub, r.tf ≠ some 0) (hs : sub.IsChain (StepOk τ)) (h0 : ∀ r, sub.head? = some r → StartOk τ r) (hne : ∃ r ∈ sub, r.f ≠ 0)
    (hd : tfDelay [withCoh tf coh] cl fl "fit" = .ok ([some d], ix)) :
    tfDelay [withCoh ((tf.map Prod.fst).zip (applyDelay tf τ)) coh] cl fl "fit" = .ok ([some (d + τ)], ix) := by
  rw [withCoh_delay]
  unfold tfDelay at hd ⊢
  simp only [show ("fit" = "diff") = False from by simp, if_false, if_true, List.map_cons, List.map_nil, Except.ok.injEq,
    Prod.mk.injEq, List.cons.injEq, and_true] at hd ⊢
  refine ⟨fit_del hsub (fun r hr => ?_) hs h0 hne hd.1, ?_⟩
  · obtain ⟨z, hzz⟩ := withCoh_some r (by rw [hsub] at hr; exact (List.mem_filter.1 hr).1)
    exact ⟨z, hzz, fun h => hz r hr (by rw [hzz, h])⟩
  · rw [mask_del]; exact hd.2

/-- C257 (method 'diff'), over all bins, with different frequencies in neighbouring bins. -/
theorem C257_diff (tf : List (ℝ × ℂ)) (coh : List (Option ℝ)) (cl fl : Option ℝ) (τ d : ℝ) (ix : List (List Bool))
    (hz : ∀ r ∈ withCoh tf coh, r.tf ≠ some 0) (hs : (withCoh tf coh).IsChain (StepOk τ)) (h0 : ∀ r, (withCoh tf coh).head? = some r → StartOk τ r)
    (hf : (withCoh tf coh).IsChain fun a b => a.f ≠ b.f)
    (hd : tfDelay [withCoh tf coh] cl fl "diff" = .ok ([some d], ix)) :
    tfDelay [withCoh ((tf.map Prod.fst).zip (applyDelay tf τ)) coh] cl fl "diff" = .ok ([some (d + τ)], ix) := by
  rw [withCoh_delay]
  unfold tfDelay at hd ⊢
  simp only [if_true, List.map_cons, List.map_nil, mask_del] at hd ⊢
  cases hdd : diffDelay cl fl (withCoh tf coh) with
  | error e => rw [hdd] at hd; cases hd
  | ok v =>
    rw [hdd] at hd
    simp only [Except.map, Except.ok.injEq, Prod.mk.injEq, List.cons.injEq, and_true] at hd
    rw [diff_del (fun r hr => ?_) hs h0 hf (hdd.trans (by rw [hd.1]))]
    · simp only [Except.map, Except.ok.injEq, Prod.mk.injEq, true_and]; exact hd.2
    · obtain ⟨z, hzz⟩ := withCoh_some r hr
      exact ⟨z, hzz, fun h => hz r hr (by rw [hzz, h])⟩

/-- Two bins, with the phases 0 and π/2. -/
noncomputable def demoTf : List (ℝ × ℂ) := [(0, 2), (0.1, Complex.I)]

theorem demo_rows : withCoh demoTf [some 0.9, some 0.9] = [⟨0, some 2, some 0.9⟩, ⟨0.1, some Complex.I, some 0.9⟩] := rfl

theorem demo_step : StepOk 1 ⟨0, some 2, some 0.9⟩ ⟨0.1, some Complex.I, some 0.9⟩ := by
  have hpi := Real.pi_pos
  have ha : Complex.arg (Complex.I / 2) = Real.pi / 2 := by
    have : Complex.I / 2 = ((1 / 2 : ℝ) : ℂ) * Complex.I := by push_cast; ring
    rw [this, Complex.arg_real_mul _ (by norm_num), Complex.arg_I]
  refine ⟨2, Complex.I, rfl, rfl, by norm_num, Complex.I_ne_zero, ?_, ?_⟩
  · rw [ha]; intro h; linarith
  · rw [ha, abs_lt]; constructor <;> norm_num <;> linarith

theorem demo_start : StartOk 1 ⟨0, some 2, some 0.9⟩ := ⟨2, rfl, by norm_num, Or.inl rfl⟩

theorem demo_coh (r : Row) (hr : r ∈ withCoh demoTf [some 0.9, some 0.9]) : Coherent (some 0.6) r ∧ Below (some 0.2) r := by
  rw [demo_rows] at hr
  simp only [List.mem_cons, List.not_mem_nil, or_false] at hr
  unfold Coherent Below
  rcases hr with rfl | rfl <;> exact ⟨fun l hl => ⟨0.9, rfl, by cases hl; norm_num⟩, fun l hl => by cases hl; norm_num⟩

theorem demo_zero (r : Row) (hr : r ∈ withCoh demoTf [some 0.9, some 0.9]) : r.tf ≠ some 0 := by
  rw [demo_rows] at hr
  simp only [List.mem_cons, List.not_mem_nil, or_false] at hr
  rcases hr with rfl | rfl <;> simp

theorem demo_below : open Classical in ((withCoh demoTf [some 0.9, some 0.9]).filter fun r => decide (Below (some 0.2) r)) = withCoh demoTf [some 0.9, some 0.9] := by
  classical
  rw [List.filter_eq_self]
  intro r hr
  exact decide_eq_true (demo_coh r hr).2

theorem demo_used : open Classical in withCoh demoTf [some 0.9, some 0.9] = (withCoh demoTf [some 0.9, some 0.9]).filter fun r => decide (Coherent (some 0.6) r ∧ Below (some 0.2) r) := by
  classical
  symm
  rw [List.filter_eq_self]
  intro r hr
  exact decide_eq_true (demo_coh r hr)

example : ∃ d ix, tfDelay [withCoh demoTf [some 0.9, some 0.9]] (some 0.6) (some 0.2) "multi" = .ok ([some d], ix) ∧
    tfDelay [withCoh ((demoTf.map Prod.fst).zip (applyDelay demoTf 1)) [some 0.9, some 0.9]] (some 0.6) (some 0.2) "multi" = .ok ([some (d + 1)], ix) := by
  have h : ∃ d, multiDelay (some 0.6) (some 0.2) (withCoh demoTf [some 0.9, some 0.9]) = some d := by
    unfold multiDelay
    rw [if_neg (by rw [demo_rows]; simp)]
    simp only
    split_ifs <;> exact ⟨_, rfl⟩
  obtain ⟨d, hd⟩ := h
  have h1 : tfDelay [withCoh demoTf [some 0.9, some 0.9]] (some 0.6) (some 0.2) "multi" = .ok ([some d], [maskOf (some 0.6) (some 0.2) (withCoh demoTf [some 0.9, some 0.9])]) := by
    unfold tfDelay
    simp [hd]
  refine ⟨d, _, h1, C257_multi demoTf _ _ _ 1 d _ (fun r hr _ => demo_zero r hr) ?_ ?_ ?_ ?_ h1⟩
  · rw [demo_below, demo_rows]; exact List.isChain_pair.2 demo_step
  · rw [demo_below, demo_rows]; intro r hr; cases hr; exact demo_start
  · intro r hr
    rw [demo_rows] at hr
    simp only [List.mem_cons, List.not_mem_nil, or_false] at hr
    rcases hr with rfl | rfl <;> norm_num
  · have hm : (⟨0.1, some Complex.I, some 0.9⟩ : Row) ∈ withCoh demoTf [some 0.9, some 0.9] := by rw [demo_rows]; simp
    exact ⟨_, hm, (demo_coh _ hm).1, (demo_coh _ hm).2, by norm_num⟩

example : let sub := withCoh demoTf [some 0.9, some 0.9]
    (open Classical in sub = (withCoh demoTf [some 0.9, some 0.9]).filter fun r => decide (Coherent (some 0.6) r ∧ Below (some 0.2) r)) ∧
    (∀ r ∈ sub, r.tf ≠ some 0) ∧ sub.IsChain (StepOk 1) ∧ (∀ r, sub.head? = some r → StartOk 1 r) ∧ (∃ r ∈ sub, r.f ≠ 0) ∧
    ∃ d ix, tfDelay [withCoh demoTf [some 0.9, some 0.9]] (some 0.6) (some 0.2) "fit" = .ok ([some d], ix) := by
  have hz : ∀ r ∈ withCoh demoTf [some 0.9, some 0.9], ∃ z : ℂ, r.tf = some z ∧ z ≠ 0 := fun r hr => by
    obtain ⟨z, hzz⟩ := withCoh_some r hr
    exact ⟨z, hzz, fun h => demo_zero r hr (by rw [hzz, h])⟩
  have hc : (withCoh demoTf [some 0.9, some 0.9]).IsChain (StepOk 1) := by rw [demo_rows]; exact List.isChain_pair.2 demo_step
  have hst : ∀ r, (withCoh demoTf [some 0.9, some 0.9]).head? = some r → StartOk 1 r := by rw [demo_rows]; intro r hr; cases hr; exact demo_start
  refine ⟨demo_used, demo_zero, hc, hst, ⟨⟨0.1, some Complex.I, some 0.9⟩, by rw [demo_rows]; simp, by norm_num⟩, ?_⟩
  classical
  obtain ⟨u, -, h1, -⟩ := unwrap_del hz hc hst
  have hf : ((withCoh demoTf [some 0.9, some 0.9]).filter fun r => decide (CohOk (some 0.6) r.coh ∧ FreqOk (some 0.2) r.f)) = withCoh demoTf [some 0.9, some 0.9] := by
    rw [List.filter_eq_self]
    intro r hr
    exact decide_eq_true ⟨(cohOk_iff _ r).2 (demo_coh r hr).1, (freqOk_iff _ r).2 (demo_coh r hr).2⟩
  have h : ∃ d, fitDelay (some 0.6) (some 0.2) (withCoh demoTf [some 0.9, some 0.9]) = some d := by
    unfold fitDelay
    simp only [hf, h1]
    rw [if_neg (by rw [demo_rows]; simp)]
    split_ifs <;> exact ⟨_, rfl⟩
  obtain ⟨d, hd⟩ := h
  exact ⟨d, [maskOf (some 0.6) (some 0.2) (withCoh demoTf [some 0.9, some 0.9])], by unfold tfDelay; simp [hd]⟩

example : let rows := withCoh demoTf [some 0.9, some 0.9]
    (∀ r ∈ rows, r.tf ≠ some 0) ∧ rows.IsChain (StepOk 1) ∧ (∀ r, rows.head? = some r → StartOk 1 r) ∧ (rows.IsChain fun a b => a.f ≠ b.f) ∧
    ∃ d ix, tfDelay [rows] (some 0.6) (some 0.2) "diff" = .ok ([some d], ix) := by
  have hz : ∀ r ∈ withCoh demoTf [some 0.9, some 0.9], ∃ z : ℂ, r.tf = some z ∧ z ≠ 0 := fun r hr => by
    obtain ⟨z, hzz⟩ := withCoh_some r hr
    exact ⟨z, hzz, fun h => demo_zero r hr (by rw [hzz, h])⟩
  have hc : (withCoh demoTf [some 0.9, some 0.9]).IsChain (StepOk 1) := by rw [demo_rows]; exact List.isChain_pair.2 demo_step
  have hst : ∀ r, (withCoh demoTf [some 0.9, some 0.9]).head? = some r → StartOk 1 r := by rw [demo_rows]; intro r hr; cases hr; exact demo_start
  refine ⟨demo_zero, hc, hst, by rw [demo_rows]; exact List.isChain_pair.2 (by norm_num), ?_⟩
  classical
  obtain ⟨u, hl, h1, -⟩ := unwrap_del hz hc hst
  have hix : maskOf (some 0.6) (some 0.2) (withCoh demoTf [some 0.9, some 0.9]) = [true, true] := by
    unfold maskOf
    rw [List.map_congr_left (g := fun _ => true)]
    · rw [demo_rows]; rfl
    · intro r hr
      exact decide_eq_true ⟨(cohOk_iff _ r).2 (demo_coh r hr).1, (freqOk_iff _ r).2 (demo_coh r hr).2⟩
  have h : ∃ d, diffDelay (some 0.6) (some 0.2) (withCoh demoTf [some 0.9, some 0.9]) = .ok (some d) := by
    unfold diffDelay
    simp only [h1, hix]
    rw [demo_rows] at hl ⊢
    obtain ⟨a, b, rfl⟩ := List.length_eq_two.1 hl
    simp [groupDelays]
  obtain ⟨d, hd⟩ := h
  exact ⟨d, [maskOf (some 0.6) (some 0.2) (withCoh demoTf [some 0.9, some 0.9])], by unfold tfDelay; simp [hd, Except.map]⟩

end SST.Props.DelayShift
