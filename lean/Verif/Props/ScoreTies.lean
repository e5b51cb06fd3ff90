import Verif.Props.Ramps

/-!
# Property C261: the variability score of slightly different series
-/

namespace SST.Props.Ramps
open SST SST.Stats

open Classical in
theorem count_le (l : List ℝ) (r : ℝ) : l.countP (fun v => r < v) + l.countP (fun v => v = r) = l.countP (fun v => r ≤ v) := by
  induction l with
  | nil => simp
  | cons a l ih =>
    simp only [List.countP_cons]
    rcases lt_trichotomy a r with h | h | h
    · simp [h.not_gt, h.ne, not_le.mpr h]; omega
    · simp [h]; omega
    · simp [h, h.ne', h.le]; omega

theorem exists_least {α : Type} (f : α → ℝ) (l : List α) (hl : l ≠ []) : ∃ a ∈ l, ∀ b ∈ l, f a ≤ f b := by
  induction l with
  | nil => simp at hl
  | cons x l ih =>
    by_cases h : l = []
    · subst h; exact ⟨x, by simp, by simp⟩
    · obtain ⟨a, ha, hb⟩ := ih h
      rcases le_total (f x) (f a) with h' | h'
      · refine ⟨x, by simp, ?_⟩
        simp only [List.mem_cons]
        rintro b (rfl | hb')
        · exact le_rfl
        · exact h'.trans (hb b hb')
      · refine ⟨a, by simp [ha], ?_⟩
        simp only [List.mem_cons]
        rintro b (rfl | hb')
        · exact h'
        · exact hb b hb'

open Classical in
/-- Bounds of the share of larger values in terms of the number of values not below. -/
theorem exceed_between {l : List ℝ} {r : ℝ} (hr : r ∈ l) :
    ((l.countP fun v => r ≤ v : ℕ) - 1 : ℝ) / 2 ≤ exceed l r * l.length ∧ exceed l r * l.length ≤ (l.countP fun v => r ≤ v : ℕ) - 1 ∧
      (l.Nodup → exceed l r * l.length = (l.countP fun v => r ≤ v : ℕ) - 1) := by
  have hn : (0 : ℝ) < l.length := by exact_mod_cast List.length_pos_of_mem hr
  have hc : ((l.countP fun v => r < v : ℕ) : ℝ) + (l.countP fun v => v = r : ℕ) = (l.countP fun v => r ≤ v : ℕ) := by exact_mod_cast count_le l r
  have e1 : (1 : ℝ) ≤ (l.countP fun v => v = r : ℕ) := by
    have : 0 < l.countP fun v => v = r := List.countP_pos_iff.mpr ⟨r, hr, by simp⟩
    exact_mod_cast this
  have e : exceed l r * l.length = (l.countP fun v => r < v : ℕ) + ((l.countP fun v => v = r : ℕ) - 1 : ℝ) / 2 := by
    unfold exceed
    rw [div_mul_cancel₀ _ hn.ne']
  have g0 : (0 : ℝ) ≤ (l.countP fun v => r < v : ℕ) := Nat.cast_nonneg _
  rw [e, ← hc]
  refine ⟨by linarith, by linarith, fun nd => ?_⟩
  have : l.countP (fun v => v = r) = 1 := by
    have := List.count_eq_one_of_mem nd hr
    rw [← this, List.count]
    rfl
  rw [this]
  norm_num

open Classical in
/-- To every value of the second list there is a value of the first that is not much smaller and has at least as many values not below it. -/
theorem match_value {z : List (ℝ × ℝ)} {d : ℝ} (hz : ∀ p ∈ z, |p.2 - p.1| ≤ d) {q : ℝ × ℝ} (hq : q ∈ z) :
    ∃ r ∈ z.map Prod.fst, q.2 - d ≤ r ∧ (z.map Prod.snd).countP (fun v => q.2 ≤ v) ≤ (z.map Prod.fst).countP (fun v => r ≤ v) := by
  obtain ⟨a, ha, hmin⟩ := exists_least Prod.fst (z.filter fun p => decide (q.2 ≤ p.2)) (by
    intro h
    have : q ∈ z.filter fun p => decide (q.2 ≤ p.2) := by simp [hq]
    rw [h] at this
    simp at this)
  simp only [List.mem_filter, decide_eq_true_eq] at ha hmin
  refine ⟨a.1, List.mem_map_of_mem ha.1, ?_, ?_⟩
  · have := hz a ha.1
    rw [abs_le] at this
    linarith [ha.2]
  · rw [List.countP_map, List.countP_map]
    refine List.countP_mono_left fun p hp h => ?_
    simp only [Function.comp_apply, decide_eq_true_eq] at h ⊢
    exact hmin p ⟨hp, h⟩

/-- The magnitudes of the ramps of two complete series of equal length, in pairs. -/
theorem paired (l l' : List ℝ) (hlen : l.length = l'.length) {ε : ℝ} (hε : ∀ i, i < l.length → |l'.getD i 0 - l.getD i 0| ≤ ε) (tau : ℕ) :
    ∃ z : List (ℝ × ℝ), (∀ p ∈ z, |p.2 - p.1| ≤ 2 * ε) ∧ (ramps (l.map some) tau).map (fun x => |x|) = z.map Prod.fst ∧
      (ramps (l'.map some) tau).map (fun x => |x|) = z.map Prod.snd := by
  refine ⟨(List.range (l.length - tau)).map fun i => (|l.getD (i + tau) 0 - l.getD i 0|, |l'.getD (i + tau) 0 - l'.getD i 0|), ?_, ?_, ?_⟩
  · intro p hp
    obtain ⟨i, hi, rfl⟩ := List.mem_map.mp hp
    rw [List.mem_range] at hi
    have h1 := hε (i + tau) (by omega)
    have h2 := hε i (by omega)
    refine (abs_abs_sub_abs_le _ _).trans ?_
    have e : l'.getD (i + tau) 0 - l'.getD i 0 - (l.getD (i + tau) 0 - l.getD i 0) = (l'.getD (i + tau) 0 - l.getD (i + tau) 0) + -(l'.getD i 0 - l.getD i 0) := by ring
    rw [e]
    refine (abs_add_le _ _).trans ?_
    rw [abs_neg]
    linarith
  · rw [ramps_full, List.map_map, List.map_map]; rfl
  · rw [ramps_full, List.map_map, List.map_map, hlen]; rfl

/-- C261 (the part that holds): a change of all samples by at most `ε` changes the score at most to twice its value plus `2 ε`; if no two ramps of the
series are of equal magnitude, the score increases by no more than `2 ε`. -/
theorem C261_bound_partial (t t' : List ℝ) (l l' : List ℝ) (hlen : l.length = l'.length) {ε : ℝ} (hε : ∀ i, i < l.length → |l'.getD i 0 - l.getD i 0| ≤ ε) (tau : ℕ)
    (movingAvg : Bool) (h : movingAvg = false ∨ tau ≤ 1) {v v' : ℝ} (hv : variabilityScore t (l.map some) tau movingAvg false = .ok (some v))
    (hv' : variabilityScore t' (l'.map some) tau movingAvg false = .ok (some v')) :
    v' ≤ 2 * v + 2 * ε ∧ (((ramps (l.map some) tau).map fun x => |x|).Nodup → v' ≤ v + 2 * ε) := by
  classical
  obtain ⟨o, ho, -, h2⟩ := C57_maximum t (l.map some) tau movingAvg h
  rw [hv] at ho
  obtain ⟨-, hmax⟩ := (h2 v).1 (by cases ho; rfl)
  obtain ⟨o', ho', -, h2'⟩ := C57_maximum t' (l'.map some) tau movingAvg h
  rw [hv'] at ho'
  obtain ⟨⟨r', hr', rfl⟩, -⟩ := (h2' v').1 (by cases ho'; rfl)
  obtain ⟨z, hz, e1, e2⟩ := paired l l' hlen hε tau
  have hm : ∀ r ∈ z.map Prod.fst, r * exceed (z.map Prod.fst) r ≤ v := by
    intro r hr
    rw [← e1] at hr
    obtain ⟨x, hx, rfl⟩ := List.mem_map.mp hr
    rw [← e1]
    exact hmax x hx
  rw [e1, e2]
  have hr'' : |r'| ∈ z.map Prod.snd := by rw [← e2]; exact List.mem_map_of_mem hr'
  obtain ⟨q, hq, hqr⟩ := List.mem_map.mp hr''
  have r0 := abs_nonneg r'
  rw [← hqr] at hr'' r0 ⊢
  obtain ⟨r, hr, hge, hcnt⟩ := match_value hz hq
  obtain ⟨-, b2, -⟩ := exceed_between hr''
  obtain ⟨a1, -, a3⟩ := exceed_between hr
  have hrm := hm r hr
  have rn : 0 ≤ r := by
    rw [← e1] at hr
    obtain ⟨x, -, rfl⟩ := List.mem_map.mp hr
    exact abs_nonneg x
  have hn : (0 : ℝ) < z.length := by exact_mod_cast List.length_pos_of_mem hq
  simp only [List.length_map] at a1 a3 b2
  have hK : ((z.map Prod.snd).countP (fun v => q.2 ≤ v) : ℝ) ≤ (z.map Prod.fst).countP (fun v => r ≤ v) := by exact_mod_cast hcnt
  have hK1 : (1 : ℝ) ≤ (z.map Prod.snd).countP (fun v => q.2 ≤ v) := by
    have : 0 < (z.map Prod.snd).countP (fun v => q.2 ≤ v) := List.countP_pos_iff.mpr ⟨q.2, hr'', by simp⟩
    exact_mod_cast this
  have hKn : ((z.map Prod.snd).countP (fun v => q.2 ≤ v) : ℝ) ≤ z.length := by
    have := List.countP_le_length (p := fun v => decide (q.2 ≤ v)) (l := z.map Prod.snd)
    rw [List.length_map] at this
    exact_mod_cast this
  have ε0 : 0 ≤ 2 * ε := (abs_nonneg _).trans (hz q hq)
  generalize ((z.map Prod.snd).countP (fun v => q.2 ≤ v) : ℝ) = K at *
  generalize ((z.map Prod.fst).countP (fun v => r ≤ v) : ℝ) = L at *
  generalize exceed (z.map Prod.fst) r = X at *
  generalize exceed (z.map Prod.snd) q.2 = Y at *
  generalize (z.length : ℝ) = n at *
  generalize q.2 = s at *
  -- everything times `n`
  have s1 : s * (Y * n) ≤ s * (K - 1) := mul_le_mul_of_nonneg_left b2 r0
  have s2 : (s - 2 * ε) * (K - 1) ≤ r * (K - 1) := mul_le_mul_of_nonneg_right hge (by linarith)
  have s3 : r * (K - 1) ≤ r * (L - 1) := mul_le_mul_of_nonneg_left (by linarith) rn
  have s4 : 2 * ε * (K - 1) ≤ 2 * ε * n := mul_le_mul_of_nonneg_left (by linarith) ε0
  have s5 : r * X * n ≤ v * n := mul_le_mul_of_nonneg_right hrm hn.le
  constructor
  · refine le_of_mul_le_mul_right ?_ hn
    have := mul_le_mul_of_nonneg_left a1 rn
    nlinarith
  · intro nd
    have := a3 nd
    refine le_of_mul_le_mul_right ?_ hn
    have e : r * (X * n) = r * (L - 1) := by rw [this]
    nlinarith

/-- The steady ramp `0, v, 2 v, …` of `n` steps. -/
def steady (v : ℝ) (n : ℕ) : List ℝ := (List.range (n + 1)).map fun (i : ℕ) => v * i

/-- The same with a slight curvature. -/
def curved (v η : ℝ) (n : ℕ) : List ℝ := (List.range (n + 1)).map fun (i : ℕ) => v * i + η * i ^ 2

theorem range_getD (f : ℕ → ℝ) {n i : ℕ} (h : i < n) : ((List.range n).map f).getD i 0 = f i := by
  rw [List.getD_eq_getElem _ _ (by simpa using h)]
  simp

/-- C261: violated by a steady ramp.  The score of `0, v, 2 v, …, n v` is `v (n - 1) / (2 n)`; arbitrarily small changes of the samples double it. -/
theorem C261_violated (v : ℝ) (hv : 0 < v) (n : ℕ) (hn : 1 ≤ n) (t : List ℝ) (ε : ℝ) (hε : 0 < ε) :
    variabilityScore t ((steady v n).map some) 1 false false = .ok (some (v * ((n - 1) / (2 * n)))) ∧
    ∃ l' : List ℝ, l'.length = (steady v n).length ∧ (∀ i, i < l'.length → |l'.getD i 0 - (steady v n).getD i 0| ≤ ε) ∧
      ∃ v', variabilityScore t (l'.map some) 1 false false = .ok (some v') ∧ 2 * (v * ((n - 1) / (2 * n))) ≤ v' := by
  classical
  have n0 : (0 : ℝ) < n := by exact_mod_cast hn
  constructor
  · obtain ⟨o, ho, -, h2⟩ := C57_maximum t ((steady v n).map some) 1 false (Or.inl rfl)
    rw [ho]
    have hr : ramps ((steady v n).map some) 1 = List.replicate n v := by
      rw [ramps_full]
      refine List.eq_replicate_iff.mpr ⟨by simp [steady], ?_⟩
      intro x hx
      obtain ⟨i, hi, rfl⟩ := List.mem_map.mp hx
      simp only [steady, List.length_map, List.length_range, List.mem_range] at hi ⊢
      rw [range_getD _ (by omega), range_getD _ (by omega)]
      push_cast
      ring
    have he : exceed (List.replicate n v) v = (n - 1) / (2 * n) := by
      unfold exceed
      rw [List.countP_replicate, List.countP_replicate]
      simp
      field_simp
    rw [hr] at h2
    congr 1
    rw [h2]
    simp only [List.map_replicate, abs_of_pos hv]
    refine ⟨⟨v, by rw [List.mem_replicate]; exact ⟨by omega, rfl⟩, by rw [abs_of_pos hv, he]⟩, ?_⟩
    intro r hr'
    rw [(List.mem_replicate.mp hr').2, abs_of_pos hv, he]
  · set η := ε / (n : ℝ) ^ 2
    have hη : 0 < η := by positivity
    refine ⟨curved v η n, by simp [curved, steady], ?_, ?_⟩
    · intro i hi
      simp only [curved, List.length_map, List.length_range] at hi
      unfold curved steady
      rw [range_getD _ hi, range_getD _ hi]
      have hi' : (i : ℝ) ≤ n := by exact_mod_cast Nat.lt_succ_iff.mp hi
      have e : v * (i : ℝ) + η * (i : ℝ) ^ 2 - v * i = η * (i : ℝ) ^ 2 := by ring
      rw [e, abs_of_nonneg (by positivity)]
      calc η * (i : ℝ) ^ 2 ≤ η * (n : ℝ) ^ 2 := mul_le_mul_of_nonneg_left (pow_le_pow_left₀ (by positivity) hi' 2) hη.le
        _ = ε := div_mul_cancel₀ _ (by positivity)
    · obtain ⟨o, ho, hnone, h2⟩ := C57_maximum t ((curved v η n).map some) 1 false (Or.inl rfl)
      have hr : ramps ((curved v η n).map some) 1 = (List.range n).map fun (i : ℕ) => v + η * (2 * i + 1) := by
        rw [ramps_full]
        have : (curved v η n).length - 1 = n := by simp [curved]
        rw [this]
        refine List.map_congr_left fun i hi => ?_
        rw [List.mem_range] at hi
        unfold curved
        rw [range_getD _ (by omega), range_getD _ (by omega)]
        push_cast
        ring
      have hpos : ∀ i : ℕ, 0 < v + η * (2 * i + 1) := fun i => by positivity
      have habs : (ramps ((curved v η n).map some) 1).map (fun x => |x|) = (List.range n).map fun (i : ℕ) => v + η * (2 * i + 1) := by
        rw [hr, List.map_map]
        refine List.map_congr_left fun i _ => ?_
        simp only [Function.comp_apply]
        exact abs_of_pos (hpos i)
      cases o with
      | none =>
        have := hnone.1 rfl
        rw [hr] at this
        simp at this
        omega
      | some v' =>
        refine ⟨v', ho, ?_⟩
        obtain ⟨-, hmax⟩ := (h2 v').1 rfl
        rw [habs] at hmax
        have m0 : v + η ∈ (List.range n).map fun i : ℕ => v + η * (2 * i + 1) := List.mem_map.mpr ⟨0, by simp; omega, by simp⟩
        have := hmax (v + η) (by rw [hr]; exact m0)
        rw [abs_of_pos (by positivity)] at this
        have nd : ((List.range n).map fun i : ℕ => v + η * (2 * i + 1)).Nodup := by
          refine List.Nodup.map ?_ List.nodup_range
          intro i j hij
          have h' : v + η * (2 * (i : ℝ) + 1) = v + η * (2 * (j : ℝ) + 1) := hij
          have h'' := mul_left_cancel₀ hη.ne' (add_left_cancel h')
          have : (i : ℝ) = j := by linarith
          exact_mod_cast this
        have hx := (exceed_between m0).2.2 nd
        have hall : ((List.range n).map fun i : ℕ => v + η * (2 * i + 1)).countP (fun w => v + η ≤ w) = n := by
          have : ∀ w ∈ (List.range n).map fun i : ℕ => v + η * (2 * i + 1), decide (v + η ≤ w) = true := by
            intro w hw
            obtain ⟨i, -, rfl⟩ := List.mem_map.mp hw
            rw [decide_eq_true_eq]
            have : (0 : ℝ) ≤ i := Nat.cast_nonneg i
            nlinarith
          rw [List.countP_eq_length.mpr this]
          simp
        rw [hall, List.length_map, List.length_range] at hx
        have hX : exceed ((List.range n).map fun i : ℕ => v + η * (2 * i + 1)) (v + η) = (n - 1) / n := by
          rw [eq_div_iff n0.ne']; exact hx
        rw [hX] at this
        have n1 : (0 : ℝ) ≤ (n - 1) / n := div_nonneg (by have : (1 : ℝ) ≤ n := by exact_mod_cast hn
                                                          linarith) n0.le
        calc 2 * (v * ((n - 1) / (2 * n))) = v * ((n - 1) / n) := by field_simp
          _ ≤ (v + η) * ((n - 1) / n) := mul_le_mul_of_nonneg_right (by linarith) n1
          _ ≤ v' := this

/-- The hypotheses of C261 hold for ten steps of 5 W/m² changed by at most 0.001. -/
example : ∃ (l' : List ℝ) (v v' : ℝ), (∀ i, i < (steady 5 10).length → |l'.getD i 0 - (steady 5 10).getD i 0| ≤ 0.001) ∧ (steady 5 10).length = l'.length ∧
    variabilityScore [] ((steady 5 10).map some) 1 false false = .ok (some v) ∧ variabilityScore [] (l'.map some) 1 false false = .ok (some v') ∧ 2 * v ≤ v' ∧ v = 2.25 := by
  obtain ⟨h, l', h1, h2, v', h3, h4⟩ := C261_violated 5 (by norm_num) 10 (by norm_num) [] 0.001 (by norm_num)
  refine ⟨l', _, v', fun i hi => h2 i (by omega), h1.symm, h, h3, h4, by norm_num⟩

end SST.Props.Ramps
