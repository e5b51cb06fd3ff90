import Verif.Spec.TfMirror
import Verif.Proofs.Tf
import Verif.Proofs.RobustTf

/-! # Delays of transfer functions with opposite phases -/

namespace SST.Tf
open SST

theorem wrapStep_neg (d : ℝ) : wrapStep (-d) = -wrapStep d := by
  have hpi := Real.pi_pos
  have h2 : (0 : ℝ) < 2 * Real.pi := by linarith
  obtain ⟨a1, a2, k, hk⟩ := pmod_spec (d + Real.pi) (p := 2 * Real.pi) h2
  obtain ⟨b1, b2, l, hl⟩ := pmod_spec (-d + Real.pi) (p := 2 * Real.pi) h2
  set A := pmod (d + Real.pi) (2 * Real.pi) with hA
  set B := pmod (-d + Real.pi) (2 * Real.pi) with hB
  have hsum : A + B = 2 * Real.pi * ((1 - k - l : ℤ) : ℝ) := by rw [hk, hl]; push_cast; ring
  have hlt : ((1 - k - l : ℤ) : ℝ) < 2 := by
    by_contra hc
    push Not at hc
    nlinarith
  have hge : (0 : ℝ) ≤ ((1 - k - l : ℤ) : ℝ) := by
    by_contra hc
    push Not at hc
    nlinarith
  have hlt' : (1 - k - l : ℤ) < 2 := by exact_mod_cast hlt
  have hge' : (0 : ℤ) ≤ 1 - k - l := by exact_mod_cast hge
  have hcase : 1 - k - l = 0 ∨ 1 - k - l = 1 := by omega
  unfold wrapStep
  simp only [← hA, ← hB]
  rcases hcase with h | h
  · rw [h] at hsum
    have hA0 : A = 0 := by push_cast at hsum; linarith
    have hB0 : B = 0 := by push_cast at hsum; linarith
    have hd0 : d ≠ 0 := by
      rintro rfl
      rw [hA0] at hk
      have h1 : Real.pi * (1 - 2 * k) = 0 := by linarith
      rcases mul_eq_zero.1 h1 with h1 | h1
      · exact hpi.ne' h1
      · have : (1 - 2 * k : ℤ) = 0 := by exact_mod_cast h1
        omega
    rw [hA0, hB0]
    rcases lt_or_gt_of_ne hd0 with hd | hd
    · rw [if_pos ⟨by ring, by linarith⟩, if_neg (by intro h; linarith [h.2])]
      ring
    · rw [if_neg (by intro h; linarith [h.2]), if_pos ⟨by ring, hd⟩]
      ring
  · rw [h] at hsum
    push_cast at hsum
    have hA' : A - Real.pi ≠ -Real.pi := by intro hc; linarith
    have hB' : B - Real.pi ≠ -Real.pi := by intro hc; linarith
    rw [if_neg (fun h => hB' h.1), if_neg (fun h => hA' h.1)]
    linarith

theorem corrStep_neg (d : ℝ) : corrStep (-d) = -corrStep d := by
  unfold corrStep
  rw [abs_neg, wrapStep_neg]
  split_ifs <;> ring

/-- Sign change of a possibly-NaN number. -/
def negO (x : Option ℝ) : Option ℝ := x.map fun v => -v

theorem oadd_neg (a b : Option ℝ) : oadd (negO a) (negO b) = negO (oadd a b) := by
  cases a <;> cases b <;> simp [oadd, negO]
  ring

theorem ostep_neg (a b : Option ℝ) : ostep (negO a) (negO b) = negO (ostep a b) := by
  cases a <;> cases b <;> simp [ostep, negO]
  rename_i x y
  rw [← corrStep_neg]
  congr 1
  ring

theorem unwrapFrom_neg (l : List (Option ℝ)) : ∀ p c, unwrapFrom (negO p) (negO c) (l.map negO) = (unwrapFrom p c l).map negO := by
  induction l with
  | nil => intro p c; rfl
  | cons q l ih =>
    intro p c
    simp only [List.map_cons, unwrapFrom]
    rw [ostep_neg, oadd_neg, oadd_neg, ih]

theorem unwrap_neg (l : List (Option ℝ)) : unwrap (l.map negO) = (unwrap l).map negO := by
  cases l with
  | nil => rfl
  | cons p l =>
    simp only [List.map_cons, unwrap]
    rw [← unwrapFrom_neg]
    simp [negO]

theorem angle_opposite {r r' : Row} (h : Turned r) {z : ℂ} {c : ℝ} (hc : 0 < c) (hz : r.tf = some z) (hz' : r'.tf = some (c * (starRingEnd ℂ) z)) :
    angle r'.tf = negO (angle r.tf) := by
  obtain ⟨w, hw, hs⟩ := h
  rw [hz] at hw
  cases hw
  have harg : z.arg ≠ Real.pi := Complex.mem_slitPlane_iff_arg.1 (Complex.mem_slitPlane_iff.2 hs) |>.1
  rw [hz, hz']
  simp only [angle, Option.map_some, negO, Option.some.injEq]
  rw [Complex.arg_real_mul _ hc, Complex.arg_conj, if_neg harg]

theorem below_freqOk {freqLim : Option ℝ} {r : Row} : FreqOk freqLim r.f ↔ Below freqLim r := by
  unfold FreqOk Below
  cases freqLim with
  | none => simp
  | some l => simp

theorem opposite_filter {freqLim : Option ℝ} {rows rows' : List Row} (h : OppositePhases freqLim rows rows') (P P' : Row → Bool)
    (hP : ∀ r r', r'.f = r.f → r'.coh = r.coh → P' r' = P r) : OppositePhases freqLim (rows.filter P) (rows'.filter P') := by
  unfold OppositePhases at h ⊢
  induction h with
  | nil => exact List.Forall₂.nil
  | @cons r r' l l' hr _ ih =>
    rw [List.filter_cons, List.filter_cons, hP r r' hr.1 hr.2.1]
    split_ifs
    · exact List.Forall₂.cons hr ih
    · exact ih

theorem opposite_angles {freqLim : Option ℝ} {rows rows' : List Row} (h : OppositePhases freqLim rows rows') (hb : ∀ r ∈ rows, Below freqLim r) :
    rows'.map (fun r => angle r.tf) = (rows.map fun r => angle r.tf).map negO := by
  unfold OppositePhases at h
  induction h with
  | nil => rfl
  | @cons r r' l l' hr _ ih =>
    obtain ⟨h1, z, c, hc, hz, hz'⟩ := hr.2.2 (hb r (by simp))
    simp only [List.map_cons]
    rw [angle_opposite h1 hc hz hz', ih fun r hr => hb r (by simp [hr])]

theorem opposite_f {freqLim : Option ℝ} {rows rows' : List Row} (h : OppositePhases freqLim rows rows') : rows'.map Row.f = rows.map Row.f := by
  unfold OppositePhases at h
  induction h with
  | nil => rfl
  | cons hr _ ih => simp only [List.map_cons, hr.1, ih]

theorem opposite_mask {freqLim : Option ℝ} {rows rows' : List Row} (h : OppositePhases freqLim rows rows') (cohLim fl : Option ℝ) :
    maskOf cohLim fl rows' = maskOf cohLim fl rows := by
  unfold OppositePhases at h
  unfold maskOf
  induction h with
  | nil => rfl
  | @cons r r' l l' hr _ ih =>
    rw [List.map_cons, List.map_cons, ih]
    congr 1
    rw [hr.1, hr.2.1]

theorem opposite_weaken {freqLim : Option ℝ} {rows rows' : List Row} (h : OppositePhases none rows rows') : OppositePhases freqLim rows rows' := by
  unfold OppositePhases at h ⊢
  refine h.imp ?_
  intro r r' hr
  exact ⟨hr.1, hr.2.1, fun _ => hr.2.2 (by intro l hl; cases hl)⟩

theorem multiUsed_opposite {cohLim freqLim : Option ℝ} {rows rows' : List Row} (h : OppositePhases freqLim rows rows') :
    multiUsed cohLim freqLim rows' = (multiUsed cohLim freqLim rows).map fun p => (p.1, -p.2) := by
  classical
  unfold multiUsed
  simp only
  have h1 := opposite_filter h (fun r => decide (FreqOk freqLim r.f)) (fun r => decide (FreqOk freqLim r.f)) (by intro r r' e _; simp only [e])
  have h2 := opposite_angles h1 (by
    intro r hr
    rw [List.mem_filter] at hr
    exact below_freqOk.1 (of_decide_eq_true hr.2))
  rw [h2, unwrap_neg]
  generalize unwrap _ = U
  unfold OppositePhases at h1
  clear h2
  generalize (rows.filter fun r => decide (FreqOk freqLim r.f)) = s at h1
  generalize (rows'.filter fun r => decide (FreqOk freqLim r.f)) = s' at h1
  induction h1 generalizing U with
  | nil => rfl
  | @cons r r' l l' hr _ ih =>
    cases U with
    | nil => rfl
    | cons u U =>
      simp only [List.map_cons, List.zip_cons_cons, List.filterMap_cons, hr.2.1, hr.1]
      have hi := ih U
      cases u with
      | none => simp only [negO, Option.map_none, ite_self]; exact hi
      | some v =>
        by_cases hc : CohOk cohLim r.coh
        · simp only [if_pos hc, negO, Option.map_some, List.map_cons]; rw [← hi]
        · simp only [if_neg hc]; exact hi

theorem forall₂_left {α β : Type} {R : α → β → Prop} {l : List α} {l' : List β} (h : List.Forall₂ R l l') : ∀ a ∈ l, ∃ b ∈ l', R a b := by
  induction h with
  | nil => intro a ha; simp at ha
  | cons hr _ ih =>
    intro a ha
    rcases List.mem_cons.1 ha with rfl | ha
    · exact ⟨_, by simp, hr⟩
    · obtain ⟨b, hb, hab⟩ := ih a ha
      exact ⟨b, by simp [hb], hab⟩

theorem sum_neg_map {α : Type} (l : List α) (f : α → ℝ) : (l.map fun p => -f p).sum = -(l.map f).sum := by
  induction l with
  | nil => simp
  | cons a l ih => simp only [List.map_cons, List.sum_cons, ih]; ring

theorem multi_opposite {cohLim freqLim : Option ℝ} {rows rows' : List Row} (h : OppositePhases freqLim rows rows') (hb : ∃ r ∈ rows, Below freqLim r) :
    ∃ d, multiDelay cohLim freqLim rows = some d ∧ multiDelay cohLim freqLim rows' = some (-d) := by
  classical
  have hne : ¬ ∀ r ∈ rows, r.tf = none := by
    intro hn
    obtain ⟨r, hr, hbr⟩ := hb
    obtain ⟨r', -, hrr⟩ := forall₂_left h r hr
    obtain ⟨⟨z, hz, -⟩, -⟩ := hrr.2.2 hbr
    rw [hn r hr] at hz
    cases hz
  have hne' : ¬ ∀ r ∈ rows', r.tf = none := by
    intro hn
    obtain ⟨r, hr, hbr⟩ := hb
    obtain ⟨r', hr', hrr⟩ := forall₂_left h r hr
    obtain ⟨-, z, c, -, -, hz'⟩ := hrr.2.2 hbr
    rw [hn r' hr'] at hz'
    cases hz'
  unfold multiDelay
  rw [if_neg hne, if_neg hne', multiUsed_opposite h]
  simp only [List.map_map, Function.comp_def]
  by_cases hb0 : ((multiUsed cohLim freqLim rows).map fun p => p.1).sum = 0
  · refine ⟨0, ?_, ?_⟩
    · rw [if_pos hb0]
    · rw [if_pos hb0, neg_zero]
  · refine ⟨_, by rw [if_neg hb0], ?_⟩
    rw [if_neg hb0]
    congr 1
    rw [sum_neg_map]
    ring

theorem neg_none (l : List (Option ℝ)) : none ∈ l.map negO ↔ none ∈ l := by
  induction l with
  | nil => simp
  | cons a l ih => cases a <;> simp_all [negO]

theorem neg_values (l : List (Option ℝ)) : (l.map negO).filterMap id = (l.filterMap id).map fun v => -v := by
  induction l with
  | nil => rfl
  | cons a l ih =>
    cases a with
    | none => exact ih
    | some v => simp only [List.map_cons, negO, Option.map_some, List.filterMap_cons, id]; exact congrArg (List.cons (-v)) ih

theorem values_length (l : List (Option ℝ)) (h : none ∉ l) : (l.filterMap id).length = l.length := by
  induction l with
  | nil => rfl
  | cons a l ih => cases a <;> simp_all

theorem fit_opposite {cohLim freqLim : Option ℝ} {rows rows' : List Row} (h : OppositePhases freqLim rows rows')
    (hb : ∃ r ∈ rows, CohOk cohLim r.coh ∧ FreqOk freqLim r.f ∧ r.f ≠ 0) {d : ℝ} (hd : fitDelay cohLim freqLim rows = some d) :
    fitDelay cohLim freqLim rows' = some (-d) := by
  classical
  unfold fitDelay at hd ⊢
  simp only at hd ⊢
  have h1 := opposite_filter h (fun r => decide (CohOk cohLim r.coh ∧ FreqOk freqLim r.f)) (fun r => decide (CohOk cohLim r.coh ∧ FreqOk freqLim r.f))
    (by intro r r' e1 e2; simp only [e1, e2])
  have h2 := opposite_angles h1 (by
    intro r hr
    rw [List.mem_filter] at hr
    exact below_freqOk.1 (of_decide_eq_true hr.2).2)
  have h3 := opposite_f h1
  rw [h2, unwrap_neg, neg_values, h3]
  set sub := rows.filter fun r => decide (CohOk cohLim r.coh ∧ FreqOk freqLim r.f) with hsub
  have hmem : ∃ r ∈ sub, r.f ≠ 0 := by
    obtain ⟨r, hr, a1, a2, a3⟩ := hb
    exact ⟨r, List.mem_filter.2 ⟨hr, by simp [a1, a2]⟩, a3⟩
  have hempty : (rows'.filter fun r => decide (CohOk cohLim r.coh ∧ FreqOk freqLim r.f)) = [] ↔ sub = [] := by
    have := List.Forall₂.length_eq h1
    rw [← List.length_eq_zero_iff, ← List.length_eq_zero_iff, this]
  split_ifs at hd with c1 c2
  · exfalso
    obtain ⟨r, hr, hr0⟩ := hmem
    push Not at c1
    have hlen : (sub.map Row.f).length = ((unwrap (sub.map fun r => angle r.tf)).filterMap id).length := by
      rw [values_length _ c1.2, unwrap_length]; simp
    have e : (((sub.map Row.f).zip ((unwrap (sub.map fun r => angle r.tf)).filterMap id)).map fun p => p.1 ^ 2) = (sub.map Row.f).map fun v => v ^ 2 := by
      rw [← List.map_fst_zip (l₁ := sub.map Row.f) (l₂ := (unwrap (sub.map fun r => angle r.tf)).filterMap id) hlen.le, List.map_map]
      rw [List.map_fst_zip hlen.le]
      rfl
    rw [e] at c2
    have hle : r.f ^ 2 ≤ ((sub.map Row.f).map fun v => v ^ 2).sum := by
      apply List.single_le_sum
      · intro v hv
        obtain ⟨w, -, rfl⟩ := List.mem_map.1 hv
        positivity
      · rw [List.map_map]
        exact List.mem_map.2 ⟨r, hr, rfl⟩
    rw [c2] at hle
    have : 0 < r.f ^ 2 := by positivity
    linarith
  · rw [if_neg (by rw [hempty, neg_none]; exact c1)]
    have e1 : (sub.map Row.f).zip (((unwrap (sub.map fun r => angle r.tf)).filterMap id).map fun v => -v) =
        ((sub.map Row.f).zip ((unwrap (sub.map fun r => angle r.tf)).filterMap id)).map fun p => (p.1, -p.2) := by
      rw [List.zip_map_right]; rfl
    rw [e1]
    simp only [List.map_map, Function.comp_def]
    rw [if_neg c2]
    have hd := Option.some.inj hd
    rw [← hd]
    congr 1
    simp only [mul_neg]
    rw [sum_neg_map]
    ring

theorem groupDelays_neg : ∀ l : List (ℝ × Option ℝ), groupDelays (l.map fun p => (p.1, negO p.2)) = (groupDelays l).map negO
  | [] => rfl
  | [a] => rfl
  | a :: b :: rest => by
    have ih := groupDelays_neg (b :: rest)
    simp only [List.map_cons] at ih ⊢
    simp only [groupDelays, List.map_cons]
    rw [ih]
    congr 1
    cases ha : a.2 <;> cases hb : b.2 <;> simp [negO]
    ring

theorem diff_opposite {cohLim freqLim : Option ℝ} {rows rows' : List Row} (h : OppositePhases none rows rows') {d : ℝ}
    (hd : diffDelay cohLim freqLim rows = .ok (some d)) : diffDelay cohLim freqLim rows' = .ok (some (-d)) := by
  classical
  unfold diffDelay at hd ⊢
  simp only at hd ⊢
  have h2 := opposite_angles h (by intro r _ l hl; cases hl)
  have h3 := opposite_f h
  have hm := opposite_mask h cohLim freqLim
  rw [h2, unwrap_neg, h3, hm, List.zip_map_right]
  rw [show (Prod.map (id : ℝ → ℝ) negO) = fun p => (p.1, negO p.2) from rfl, groupDelays_neg, List.getLast?_map]
  cases hg : (groupDelays ((rows.map Row.f).zip (unwrap (rows.map fun r => angle r.tf)))).getLast? with
  | none => rw [hg] at hd; cases hd
  | some last =>
    rw [hg] at hd
    simp only [Option.map_some] at hd ⊢
    rw [show (groupDelays ((rows.map Row.f).zip (unwrap (rows.map fun r => angle r.tf)))).map negO ++ [negO last] =
      ((groupDelays ((rows.map Row.f).zip (unwrap (rows.map fun r => angle r.tf)))) ++ [last]).map negO by simp]
    rw [neg_values]
    split_ifs at hd with c1
    · exact absurd (Except.ok.inj hd) (by simp)
    rw [if_neg (by rw [neg_none]; exact c1)]
    have hd := Except.ok.inj hd
    have hd := Option.some.inj hd
    rw [← hd, List.zip_map_left, List.map_map]
    congr 2
    rw [← sum_neg_map]
    congr 1
    apply List.map_congr_left
    rintro ⟨v, b⟩ _
    simp only [Function.comp, Prod.map, id]
    ring

end SST.Tf
