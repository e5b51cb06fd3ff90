import Verif.Props.Tf

/-!
# Properties C97-C107: delays from transfer functions, power spectra

Specifications: `Spec/Tf.lean`.
-/

namespace SST.Props.Tf
open SST SST.Tf SST.Dft SST.Corr SST.Spec

/-! ## C97 -/

/-- C97 is violated by 'fit': the phase is unwrapped over the usable bins only, so leaving out one
incoherent bin of an exact 0.4 s delay makes it return -0.1 s, where 'multi' still returns 0.4 s. -/
theorem C97_violated_fit : ∃ rows : List Row, (∀ r ∈ rows, PureDelay 0.4 r) ∧ rows.IsChain (SmallStep 0.4) ∧
    (∃ ix, tfDelay [rows] (some 0.5) none "fit" = .ok ([some (-0.1)], ix)) ∧
    (∃ ix, tfDelay [rows] (some 0.5) none "multi" = .ok ([some 0.4], ix)) ∧
    (∃ ix, tfDelay [rows] none none "fit" = .ok ([some 0.4], ix)) := by
  classical
  have hpi := Real.pi_pos
  refine ⟨demo 0, demo_pure 0, demo_steps 0, ?_, ?_, ?_⟩
  · apply C45_fit (demo 0) [⟨0, some 1, some 1⟩, ⟨2, some (Complex.exp (-(2 * Real.pi * 2 * 0.4 : ℝ) * Complex.I)), some 1⟩]
    · have c0 : Coherent (some 0.5) ⟨0, some 1, some 1⟩ := fun l hl => ⟨1, rfl, by rw [← Option.some.inj hl]; norm_num⟩
      have c2 : Coherent (some 0.5) ⟨2, some (Complex.exp (-(2 * Real.pi * 2 * 0.4 : ℝ) * Complex.I)), some 1⟩ :=
        fun l hl => ⟨1, rfl, by rw [← Option.some.inj hl]; norm_num⟩
      have c1 : ¬ Coherent (some 0.5) ⟨1, some (Complex.exp (-(2 * Real.pi * 1 * 0.4 : ℝ) * Complex.I)), some 0⟩ := by
        intro h
        obtain ⟨v, hv, hlt⟩ := h 0.5 rfl
        rw [← Option.some.inj hv] at hlt
        norm_num at hlt
      have b : ∀ r : Row, Below none r := by intro r l hl; cases hl
      unfold demo
      simp only [List.filter_cons, List.filter_nil]
      rw [if_pos (decide_eq_true ⟨c0, b _⟩), if_neg (by rw [decide_eq_true_eq]; exact fun h => c1 h.1), if_pos (decide_eq_true ⟨c2, b _⟩)]
    · intro r hr
      simp only [List.mem_cons, List.not_mem_nil, or_false] at hr
      rcases hr with rfl | rfl
      · exact ⟨1, one_pos, by simp⟩
      · refine ⟨1, one_pos, ?_⟩
        simp only [Complex.ofReal_one, one_mul]
        congr 1
        rw [Complex.exp_eq_exp_iff_exists_int]
        refine ⟨-1, ?_⟩
        push_cast; ring
    · simp only [List.isChain_cons_cons, List.isChain_singleton, and_true, SmallStep]
      rw [abs_lt]; constructor <;> norm_num <;> linarith
    · intro r hr
      simp only [List.head?_cons, Option.some.injEq] at hr
      subst hr; simp [hpi]
    · exact ⟨_, by simp only [List.mem_cons]; exact Or.inr (Or.inl rfl), by norm_num⟩
  · refine ⟨[maskOf (some 0.5) none (demo 0)], ?_⟩
    unfold tfDelay
    rw [if_neg (by decide), if_neg (by decide), if_pos rfl]
    simp only [List.map_cons, List.map_nil]
    rw [multi_pure (some 0.5) none 0.4 (demo 0)]
    · simp [demo]
    · intro r hr
      simp only [demo, List.mem_cons, List.not_mem_nil, or_false] at hr
      rcases hr with rfl | rfl | rfl <;> norm_num
    · exact fun r hr _ => demo_pure 0 r hr
    · exact demo_steps 0
    · intro r hr
      simp only [demo, List.head?_cons, Option.some.injEq] at hr
      subst hr; simp [hpi]
    · refine ⟨_, by simp only [demo, List.mem_cons]; exact Or.inr (Or.inr (Or.inl rfl)), ?_, ?_, by norm_num⟩
      · intro l hl; exact ⟨1, rfl, by rw [← Option.some.inj hl]; norm_num⟩
      · intro l hl; cases hl
  · apply C45_fit (demo 0) (demo 0)
    · symm
      rw [List.filter_eq_self]
      intro r _
      have h1 : Coherent none r := by intro l hl; cases hl
      have h2 : Below none r := by intro l hl; cases hl
      exact decide_eq_true ⟨h1, h2⟩
    · exact demo_pure 0
    · exact demo_steps 0
    · intro r hr
      simp only [demo, List.head?_cons, Option.some.injEq] at hr
      subst hr; simp [hpi]
    · exact ⟨_, by simp only [demo, List.mem_cons]; exact Or.inr (Or.inr (Or.inl rfl)), by norm_num⟩

/-- C97 for 'multi': on exact linear phase the delay is the same for any two coherence limits that leave
a usable positive frequency. -/
theorem C97_multi_partial (rows : List Row) (c1 c2 freqLim : Option ℝ) (τ : ℝ)
    (hsort : rows.Pairwise fun a b => a.f < b.f) (hf : ∀ r ∈ rows, 0 ≤ r.f)
    (hp : ∀ r ∈ rows, Below freqLim r → PureDelay τ r) (hs : rows.IsChain (SmallStep τ))
    (h0 : ∀ r, rows.head? = some r → |2 * Real.pi * r.f * τ| < Real.pi)
    (h1 : ∃ r ∈ rows, Coherent c1 r ∧ Below freqLim r ∧ 0 < r.f) (h2 : ∃ r ∈ rows, Coherent c2 r ∧ Below freqLim r ∧ 0 < r.f) :
    (tfDelay [rows] c1 freqLim "multi").map Prod.fst = (tfDelay [rows] c2 freqLim "multi").map Prod.fst := by
  have e1 := C45_multi [rows] c1 freqLim [multiDelay c1 freqLim rows] [maskOf c1 freqLim rows] rfl 0 rows rfl τ hsort hf hp hs h0 h1
  have e2 := C45_multi [rows] c2 freqLim [multiDelay c2 freqLim rows] [maskOf c2 freqLim rows] rfl 0 rows rfl τ hsort hf hp hs h0 h2
  simp only [List.getElem?_cons_zero, Option.some.injEq] at e1 e2
  show Except.ok [multiDelay c1 freqLim rows] = Except.ok [multiDelay c2 freqLim rows]
  rw [e1, e2]

/-- The hypotheses of C97 hold in a concrete case: an exact delay of 0.4 s, with and without a limit on the coherence. -/
example : (tfDelay [demo 0] (some 0.5) none "multi").map Prod.fst = (tfDelay [demo 0] none none "multi").map Prod.fst := by
  have h : ∀ c : Option ℝ, c = some 0.5 ∨ c = none → ∃ r ∈ demo 0, Coherent c r ∧ Below none r ∧ 0 < r.f := by
    rintro c hc
    refine ⟨_, by simp only [demo, List.mem_cons]; exact Or.inr (Or.inr (Or.inl rfl)), ?_, ?_, by norm_num⟩
    · intro l hl
      rcases hc with rfl | rfl
      · exact ⟨1, rfl, by rw [← Option.some.inj hl]; norm_num⟩
      · cases hl
    · intro l hl; cases hl
  refine C97_multi_partial (demo 0) (some 0.5) none none 0.4 (by simp [demo]) ?_ (fun r hr _ => demo_pure 0 r hr) (demo_steps 0) ?_
    (h _ (Or.inl rfl)) (h _ (Or.inr rfl))
  · intro r hr
    simp only [demo, List.mem_cons, List.not_mem_nil, or_false] at hr
    rcases hr with rfl | rfl | rfl <;> norm_num
  · intro r hr
    simp only [demo, List.head?_cons, Option.some.injEq] at hr
    subst hr; simp [Real.pi_pos]

/-! ## C98 -/

/-- C98 is violated: a NaN in the first bin below the frequency limit makes 'multi' return delay 0 for
the whole column, whatever the other bins say. -/
theorem C98_violated_first (r : Row) (rs : List Row) (cohLim freqLim : Option ℝ) (hr : r.tf = none) (hb : Below freqLim r)
    (hne : ∃ r' ∈ rs, r'.tf ≠ none) : ∃ ix, tfDelay [r :: rs] cohLim freqLim "multi" = .ok ([some 0], ix) := by
  classical
  refine ⟨[maskOf cohLim freqLim (r :: rs)], ?_⟩
  unfold tfDelay
  rw [if_neg (by decide), if_neg (by decide), if_pos rfl]
  simp only [List.map_cons, List.map_nil]
  have hu : multiUsed cohLim freqLim (r :: rs) = [] := by
    unfold multiUsed
    simp only [freqOk_iff]
    rw [List.filter_cons, if_pos (decide_eq_true hb)]
    simp only [List.map_cons]
    rw [show angle r.tf = none by rw [hr]; rfl]
    have := unwrap_nan [] ((rs.filter fun r => decide (Below freqLim r)).map fun r => angle r.tf)
    simp only [List.map_nil, List.nil_append] at this
    rw [this]
    rw [List.filterMap_eq_nil_iff]
    intro p hp
    have h2 := (List.of_mem_zip hp).2
    simp only [unwrapR, List.map_nil, List.nil_append, List.mem_replicate] at h2
    rw [h2.2]
    split_ifs <;> rfl
  unfold multiDelay
  rw [if_neg]
  · simp [hu]
  · push Not
    obtain ⟨r', h1, h2⟩ := hne
    exact ⟨r', by simp [h1], h2⟩

/-- The hypotheses hold in a concrete case: a NaN at 0 Hz, a value at 1 Hz, limit 1.5 Hz. -/
example : ∃ ix, tfDelay [[⟨0, none, none⟩, ⟨1, some Complex.I, some 1⟩]] none (some 1.5) "multi" = .ok ([some 0], ix) :=
  C98_violated_first ⟨0, none, none⟩ [⟨1, some Complex.I, some 1⟩] none (some 1.5) rfl (fun l hl => by rw [← Option.some.inj hl]; norm_num)
    ⟨⟨1, some Complex.I, some 1⟩, by simp, by simp⟩

/-- C98, how it happens: with a rectangular window and `detrend='constant'` the zero-frequency bin has no
power, so 'multi' reports delay 0 for any two signals with power elsewhere. -/
theorem C98_violated_detrend (dt ov : ℝ) (navgs : ℕ) (a b : String) (x y : List ℝ) (nm : String) (rows : List Row)
    (h : averagedTf ⟨dt, navgs, ov, fun L => List.replicate L 1, .constant⟩ [(a, x)] [(b, y)] = .ok [(nm, rows)])
    (hne : ∃ r ∈ rows, r.tf ≠ none) (cohLim : Option ℝ) (fl : ℝ) (hfl : 0 < fl) :
    ∃ ix, tfDelay [rows] cohLim (some fl) "multi" = .ok ([some 0], ix) := by
  obtain ⟨-, hL, -, e⟩ := averagedTf_pair _ _ _ _ _ h
  simp only [List.cons.injEq, Prod.mk.injEq, and_true] at e
  obtain ⟨-, e⟩ := e
  simp only at hL e
  set L := x.length / navgs with hLd
  set ovn := (pyInt ((L : ℝ) * ov)).toNat
  have hz : ∀ s : ℕ, s + L ≤ x.length → Tf.spectrum (List.replicate L 1) .constant (Tf.segment x L s) 0 = 0 := by
    intro s hs
    have hl : (Tf.segment x L s).length = L := by simp [Tf.segment]; omega
    unfold Tf.spectrum
    have : ∀ j ∈ Finset.range (Tf.segment x L s).length,
        ((at0 (detrend .constant (Tf.segment x L s)) j * at0 (List.replicate L 1) j : ℝ) : ℂ) * twiddle (Tf.segment x L s).length (j * (0 : ℕ)) =
          ((Spec.ext (center (Tf.segment x L s)) j : ℝ) : ℂ) := by
      intro j hj
      rw [Finset.mem_range, hl] at hj
      rw [at0_replicate hj]
      rw [show detrend .constant (Tf.segment x L s) = center (Tf.segment x L s) from rfl, at0_ext]
      simp [twiddle_zero]
    rw [Finset.sum_congr rfl this, ← Complex.ofReal_sum]
    have h3 := sum_ext (center (Tf.segment x L s))
    rw [show (center (Tf.segment x L s)).length = (Tf.segment x L s).length by simp [center]] at h3
    rw [h3, center_sum]; simp
  obtain ⟨r0, rs, hrs, h0f, h0⟩ : ∃ r0 rs, rows = r0 :: rs ∧ r0.f = 0 ∧ r0.tf = none := by
    have hg := pairTf_get ⟨dt, navgs, ov, fun L => List.replicate L 1, .constant⟩ L ovn x y (k := 0) (by omega)
    cases hrows : rows with
    | nil =>
      rw [hrows] at e
      rw [← e] at hg; simp at hg
    | cons r0 rs =>
      refine ⟨r0, rs, rfl, ?_⟩
      rw [hrows] at e
      rw [← e, List.getElem?_cons_zero, Option.some.injEq] at hg
      rw [hg]
      refine ⟨by simp, ?_⟩
      simp only
      unfold tfBin
      rw [if_pos]
      unfold psd
      rw [List.sum_eq_zero]
      · simp
      · intro v hv
        obtain ⟨z, hz', rfl⟩ := List.mem_map.1 hv
        unfold spectra at hz'
        obtain ⟨s, hs, rfl⟩ := List.mem_map.1 hz'
        rw [hz s, Complex.normSq_zero]
        unfold segStarts at hs
        obtain ⟨q, hq, rfl⟩ := List.mem_map.1 hs
        rw [List.mem_range] at hq
        have hovL : ovn < L := by
          obtain ⟨-, -, h3, -⟩ := averagedTf_pair _ _ _ _ _ h
          simp only at h3
          rw [← hLd] at h3
          omega
        have h5 : (q + 1) * (L - ovn) ≤ x.length - ovn := by
          calc (q + 1) * (L - ovn) ≤ ((x.length - ovn) / (L - ovn)) * (L - ovn) := Nat.mul_le_mul_right _ hq
            _ ≤ _ := Nat.div_mul_le_self _ _
        have h6 : L ≤ x.length := Nat.div_le_self _ _
        rw [Nat.add_mul, one_mul] at h5
        omega
  subst hrs
  apply C98_violated_first r0 rs cohLim (some fl) h0
  · intro l hl; rw [h0f, ← Option.some.inj hl]; exact hfl
  · obtain ⟨r', h1, h2⟩ := hne
    rcases List.mem_cons.1 h1 with rfl | h1
    · exact absurd h0 h2
    · exact ⟨r', h1, h2⟩

/-- C98, what holds: only the bins before the first NaN are used. -/
theorem C98_prefix_partial (pre post : List Row) (r : Row) (cohLim freqLim : Option ℝ) (hr : r.tf = none) (hpre : pre ≠ [])
    (hn : ∀ r' ∈ pre, r'.tf ≠ none) (hsort : (pre ++ r :: post).Pairwise fun a b => a.f < b.f) :
    (tfDelay [pre ++ r :: post] cohLim freqLim "multi").map Prod.fst = (tfDelay [pre] cohLim freqLim "multi").map Prod.fst := by
  classical
  show Except.ok [multiDelay cohLim freqLim (pre ++ r :: post)] = Except.ok [multiDelay cohLim freqLim pre]
  congr 2
  have hu : multiUsed cohLim freqLim (pre ++ r :: post) = multiUsed cohLim freqLim pre := by
    unfold multiUsed
    simp only [freqOk_iff]
    rw [List.filter_append]
    by_cases hb : Below freqLim r
    · rw [List.filter_cons, if_pos (decide_eq_true hb)]
      set P := pre.filter fun r => decide (Below freqLim r) with hP
      set Q := post.filter fun r => decide (Below freqLim r)
      have e1 : P.map (fun r => angle r.tf) = (P.map fun r => (angle r.tf).getD 0).map some := by
        rw [List.map_map]
        apply List.map_congr_left
        intro r' hr'
        have := hn r' (List.mem_of_mem_filter hr')
        cases h : r'.tf with
        | none => exact absurd h this
        | some z => simp [angle, h]
      rw [List.map_append, List.map_cons, show angle r.tf = none by rw [hr]; rfl]
      rw [e1, unwrap_nan, unwrap_some]
      rw [List.zip_append (by simp [unwrapR_length]), List.filterMap_append]
      convert List.append_nil _ using 2
      rw [List.filterMap_eq_nil_iff]
      intro p hp
      have h2 := (List.of_mem_zip hp).2
      rw [List.mem_replicate] at h2
      rw [h2.2]
      split_ifs <;> rfl
    · have : (r :: post).filter (fun r => decide (Below freqLim r)) = [] := by
        rw [List.filter_eq_nil_iff]
        intro r' hr' h'
        apply hb
        rcases List.mem_cons.1 hr' with rfl | hr'
        · simpa using h'
        · intro l hl
          have h1 := (List.pairwise_cons.1 (List.pairwise_append.1 hsort).2.1).1 r' hr'
          have h2 : Below freqLim r' := by simpa using h'
          exact h1.trans (h2 l hl)
      rw [this, List.append_nil]
  obtain ⟨r', hr'⟩ := List.exists_mem_of_ne_nil pre hpre
  have n1 : ¬ ∀ r ∈ pre, r.tf = none := fun h => hn r' hr' (h r' hr')
  have n2 : ¬ ∀ r'' ∈ pre ++ r :: post, r''.tf = none := fun h => hn r' hr' (h r' (by simp [hr']))
  unfold multiDelay
  rw [hu, if_neg n1, if_neg n2]

/-- The hypotheses hold in a concrete case: a NaN in the last of three bins. -/
example : (tfDelay [[⟨0, some 1, some 1⟩, ⟨1, some Complex.I, some 1⟩] ++ ⟨2, none, none⟩ :: []] none none "multi").map Prod.fst =
    (tfDelay [[⟨0, some 1, some 1⟩, ⟨1, some Complex.I, some 1⟩]] none none "multi").map Prod.fst :=
  C98_prefix_partial _ [] ⟨2, none, none⟩ none none rfl (by simp) (by simp) (by norm_num)

/-! ## C99 -/

/-- C99 is violated by 'multi': a pair without any usable bin is reported with delay 0. -/
theorem C99_violated_multi (rows : List Row) (cohLim freqLim : Option ℝ) (hn : ∃ r ∈ rows, r.tf ≠ none)
    (hno : ∀ r ∈ rows, ¬ (Coherent cohLim r ∧ Below freqLim r)) :
    ∃ ix, tfDelay [rows] cohLim freqLim "multi" = .ok ([some 0], ix) := by
  classical
  refine ⟨[maskOf cohLim freqLim rows], ?_⟩
  unfold tfDelay
  rw [if_neg (by decide), if_neg (by decide), if_pos rfl]
  simp only [List.map_cons, List.map_nil]
  have hu : multiUsed cohLim freqLim rows = [] := by
    unfold multiUsed
    simp only [freqOk_iff, cohOk_iff]
    rw [List.filterMap_eq_nil_iff]
    intro p hp
    have h1 := (List.of_mem_zip hp).1
    rw [List.mem_filter] at h1
    rw [if_neg]
    intro hc
    exact hno p.1 h1.1 ⟨hc, by simpa using h1.2⟩
  unfold multiDelay
  rw [if_neg]
  · simp [hu]
  · push Not; exact hn

/-- C99 is violated by 'fit' too when only the zero-frequency bin is usable: it returns the start value of
the curve fit, 1 s. -/
theorem C99_violated_fit (z : ℂ) (rest : List Row) (c : ℝ) (cohLim freqLim : Option ℝ)
    (h0 : Coherent cohLim ⟨0, some z, some c⟩ ∧ Below freqLim ⟨0, some z, some c⟩)
    (hno : ∀ r ∈ rest, ¬ (Coherent cohLim r ∧ Below freqLim r)) :
    ∃ ix, tfDelay [⟨0, some z, some c⟩ :: rest] cohLim freqLim "fit" = .ok ([some 1], ix) := by
  classical
  refine ⟨[maskOf cohLim freqLim (⟨0, some z, some c⟩ :: rest)], ?_⟩
  unfold tfDelay
  rw [if_neg (by decide), if_pos rfl]
  have : fitDelay cohLim freqLim (⟨0, some z, some c⟩ :: rest) = some 1 := by
    unfold fitDelay
    simp only [freqOk_iff, cohOk_iff]
    rw [List.filter_cons, if_pos (decide_eq_true h0)]
    have : rest.filter (fun r => decide (Coherent cohLim r ∧ Below freqLim r)) = [] := by
      rw [List.filter_eq_nil_iff]
      intro r hr h
      exact hno r hr (by simpa using h)
    rw [this]
    simp [angle, unwrap, unwrapFrom]
  simp only [this]
  rfl

/-- C99 for 'fit' without any usable bin, and for both methods on a column of NaNs: NaN. -/
theorem C99_nan_partial (rows : List Row) (cohLim freqLim : Option ℝ) :
    ((∀ r ∈ rows, ¬ (Coherent cohLim r ∧ Below freqLim r)) → ∃ ix, tfDelay [rows] cohLim freqLim "fit" = .ok ([none], ix)) ∧
    ((∀ r ∈ rows, r.tf = none) → (∃ ix, tfDelay [rows] cohLim freqLim "multi" = .ok ([none], ix)) ∧
      ∃ ix, tfDelay [rows] cohLim freqLim "fit" = .ok ([none], ix)) := by
  classical
  refine ⟨fun h => ⟨[maskOf cohLim freqLim rows], ?_⟩, fun h => ⟨⟨[maskOf cohLim freqLim rows], ?_⟩, ⟨[maskOf cohLim freqLim rows], ?_⟩⟩⟩
  · unfold tfDelay
    rw [if_neg (by decide), if_pos rfl]
    have : fitDelay cohLim freqLim rows = none := by
      unfold fitDelay
      simp only [freqOk_iff, cohOk_iff]
      rw [if_pos]
      left
      rw [List.filter_eq_nil_iff]
      intro r hr h'
      exact h r hr (by simpa using h')
    simp only [this]; rfl
  · unfold tfDelay
    rw [if_neg (by decide), if_neg (by decide), if_pos rfl]
    simp only [List.map_cons, List.map_nil, multiDelay, if_pos h]
  · unfold tfDelay
    rw [if_neg (by decide), if_pos rfl]
    have : fitDelay cohLim freqLim rows = none := by
      unfold fitDelay
      simp only
      set sub := rows.filter fun r => decide (CohOk cohLim r.coh ∧ FreqOk freqLim r.f) with hsub
      rw [if_pos]
      by_cases hs : sub = []
      · exact Or.inl hs
      · right
        cases hc : sub with
        | nil => exact absurd hc hs
        | cons r rs =>
          have hr : r.tf = none := by
            apply h r
            apply List.mem_of_mem_filter (p := fun r => decide (CohOk cohLim r.coh ∧ FreqOk freqLim r.f))
            rw [← hsub, hc]; simp
          simp [unwrap, hr, angle]
    simp only [this]; rfl

example : Coherent (some 0.6) ⟨0, some 1, some 1⟩ ∧ Below (some 0.02) ⟨0, some 1, some 1⟩ :=
  ⟨fun l hl => ⟨1, rfl, by rw [← Option.some.inj hl]; norm_num⟩, fun l hl => by rw [← Option.some.inj hl]; norm_num⟩

/-! ## C100 -/

theorem computeDelaysTf_ok {o : Opts} {ins outs : List (String × List ℝ)} {cohLim freqLim : Option ℝ} {method : String}
    {res : List (Option ℝ × List Bool × XR)} (h : computeDelaysTf o ins outs cohLim freqLim method = .ok res) :
    ∃ tf fl, averagedTf { o with detr := .none } ins outs = .ok tf ∧ freqLim = some fl ∧ (method = "fit" ∨ method = "multi") ∧
      (method = "fit" → (tf.map Prod.fst).Nodup) ∧
      res = tf.map fun p => (if method = "fit" then fitDelay cohLim freqLim p.2 else multiDelay cohLim freqLim p.2,
        maskOf cohLim freqLim p.2, meanCoh fl p.2) := by
  unfold computeDelaysTf at h
  by_cases h1 : 1 < ins.length ∧ 1 < outs.length ∧ ins.length ≠ outs.length
  · rw [if_pos h1] at h; cases h
  rw [if_neg h1] at h
  cases ht : averagedTf { o with detr := .none } ins outs with
  | error e => rw [ht] at h; cases h
  | ok tf =>
    rw [ht] at h
    simp only at h
    by_cases h2 : method = "fit" ∧ ¬ (tf.map Prod.fst).Nodup
    · rw [if_pos h2] at h; cases h
    rw [if_neg h2] at h
    by_cases h3 : method ≠ "fit" ∧ method ≠ "multi"
    · rw [if_pos h3] at h; cases h
    rw [if_neg h3] at h
    cases hf : freqLim with
    | none => rw [hf] at h; cases h
    | some fl =>
      rw [hf] at h
      refine ⟨tf, fl, rfl, rfl, ?_, ?_, (Except.ok.inj h).symm⟩
      · rw [not_and_or, not_ne_iff, not_ne_iff] at h3; exact h3
      · intro hm; by_contra hc; exact h2 ⟨hm, hc⟩

/-- C100: for a positive frequency limit the mean coherence is a number in [0, 1]; for a limit of zero or
less it is NaN. -/
theorem C100_mean_coherence (o : Opts) (n : ℕ) (ins outs : List (String × List ℝ)) (hi : ∀ p ∈ ins, p.2.length = n)
    (ho : ∀ p ∈ outs, p.2.length = n) (hdt : 0 < o.dt) (cohLim : Option ℝ) (fl : ℝ) (method : String) (res : List (Option ℝ × List Bool × XR))
    (h : computeDelaysTf o ins outs cohLim (some fl) method = .ok res) :
    ∀ t ∈ res, (0 < fl → ∃ v : ℝ, t.2.2 = .fin v ∧ 0 ≤ v ∧ v ≤ 1) ∧ (fl ≤ 0 → t.2.2 = .nan) := by
  classical
  obtain ⟨tf, fl', htf, hfl', -, -, rfl⟩ := computeDelaysTf_ok h
  obtain rfl := Option.some.inj hfl'
  have hr := C43_range _ n ins outs hi ho tf htf
  obtain ⟨ps, -, -, hL, -, hcols⟩ := averagedTf_ok htf
  intro t ht
  obtain ⟨p, hp, rfl⟩ := List.mem_map.1 ht
  have hrange := hr p hp
  obtain ⟨q, hq, hpq⟩ := List.mem_map.1 (hcols ▸ hp)
  have hrows : p.2 = pairTf { o with detr := .none } ((ins.headD ("", [])).2.length / o.navgs) (pyInt (((ins.headD ("", [])).2.length / o.navgs : ℕ) * o.overlap)).toNat q.2.1 q.2.2 := by
    rw [← hpq]
  simp only at hL ⊢
  unfold meanCoh
  simp only
  set sub := p.2.filter fun r => decide (r.f < fl) with hsub
  have hmem : ∀ r ∈ sub, ∀ v, r.coh = some v → 0 ≤ v ∧ v ≤ 1 := fun r hr' v hv =>
    hrange r (List.mem_of_mem_filter hr') v hv
  have hsum : ∀ l : List Row, (∀ r ∈ l, ∀ v, r.coh = some v → 0 ≤ v ∧ v ≤ 1) →
      0 ≤ (l.filterMap Row.coh).sum ∧ (l.filterMap Row.coh).sum ≤ l.length := by
    intro l hl
    induction l with
    | nil => simp
    | cons r l ih =>
      have ih' := ih (fun r' h' => hl r' (by simp [h']))
      cases hc : r.coh with
      | none => rw [List.filterMap_cons_none hc]; push_cast [List.length_cons]; constructor <;> linarith
      | some v =>
        have := hl r (by simp) v hc
        rw [List.filterMap_cons_some hc]; push_cast [List.length_cons, List.sum_cons]; constructor <;> linarith
  obtain ⟨s0, s1⟩ := hsum sub hmem
  constructor
  · intro hpos
    have hne : sub ≠ [] := by
      have hg := pairTf_get { o with detr := .none } ((ins.headD ("", [])).2.length / o.navgs) (pyInt (((ins.headD ("", [])).2.length / o.navgs : ℕ) * o.overlap)).toNat q.2.1 q.2.2 (k := 0) (by omega)
      rw [← hrows] at hg
      have hm := List.mem_of_getElem? hg
      intro hnil
      rw [hsub, List.filter_eq_nil_iff] at hnil
      exact hnil _ hm (decide_eq_true (by simpa using hpos))
    have hlen : (0 : ℝ) < sub.length := by exact_mod_cast List.length_pos_iff.2 hne
    refine ⟨_, div_pos_fin _ hlen.ne', div_nonneg s0 hlen.le, by rw [div_le_one hlen]; exact s1⟩
  · intro hneg
    have : sub = [] := by
      rw [hsub, List.filter_eq_nil_iff]
      intro r hr' h'
      rw [hrows] at hr'
      obtain ⟨k, -, rfl⟩ := pairTf_mem hr'
      have h1 : (0 : ℝ) ≤ (k : ℝ) / (((ins.headD ("", [])).2.length / o.navgs : ℕ) * o.dt) := by positivity
      have h2 : (k : ℝ) / (((ins.headD ("", [])).2.length / o.navgs : ℕ) * o.dt) < fl := of_decide_eq_true h'
      linarith
    rw [this]
    simp [div_zero_zero]

/-! ## C101 -/

/-- C101 is violated: no frequency limit, which `tf_delay` accepts, always makes `compute_delays_tf` fail. -/
theorem C101_violated (o : Opts) (ins outs : List (String × List ℝ)) (cohLim : Option ℝ) (method : String) :
    ¬ ∃ res, computeDelaysTf o ins outs cohLim none method = .ok res := by
  rintro ⟨res, h⟩
  obtain ⟨tf, fl, -, h2, -⟩ := computeDelaysTf_ok h
  cases h2

/-- C101 with a frequency limit: 'multi' succeeds whenever the transfer functions exist, with or without
a coherence limit, and its delays and masks are those of `tf_delay`. -/
theorem C101_limits_partial (o : Opts) (ins outs : List (String × List ℝ)) (cohLim : Option ℝ) (fl : ℝ) (tf : List (String × List Row))
    (h : averagedTf { o with detr := .none } ins outs = .ok tf) :
    ∃ res, computeDelaysTf o ins outs cohLim (some fl) "multi" = .ok res ∧
      tfDelay (tf.map Prod.snd) cohLim (some fl) "multi" = .ok (res.map Prod.fst, res.map fun t => t.2.1) := by
  have h1 : ¬ (1 < ins.length ∧ 1 < outs.length ∧ ins.length ≠ outs.length) := by
    rintro ⟨a, b, c⟩
    obtain ⟨ps, hps, -⟩ := averagedTf_ok h
    unfold pairCols at hps
    rw [if_neg (fun e => c e.symm), if_neg (by omega), if_neg (by omega)] at hps
    cases hps
  refine ⟨tf.map fun p => (multiDelay cohLim (some fl) p.2, maskOf cohLim (some fl) p.2, meanCoh fl p.2), ?_, ?_⟩
  · unfold computeDelaysTf
    rw [if_neg h1, h]
    simp
  · unfold tfDelay
    rw [if_neg (by decide), if_neg (by decide), if_pos rfl]
    simp [List.map_map, Function.comp_def]

/-! ## C102 -/

theorem lagsOf_sorted (n m : ℕ) : (lagsOf n m).Pairwise (· < ·) := by
  unfold lagsOf
  rw [List.pairwise_map]
  apply List.Pairwise.imp _ List.pairwise_lt_range
  intro a b hab
  omega

theorem xcorrExtras_coeff (dt : ℝ) (x y : List ℝ) (hx : ¬ IsConst x) (hy : ¬ IsConst y) (delay : Option ℝ) :
    xcorrExtras dt x y delay = .ok (
      peakAt ((lagsOf x.length y.length).map fun (l : ℤ) => ((l : ℝ) * dt, XR.fin (xcorrAt (center x) (center y) l / (x.length * (std x * std y))))) delay,
      XR.fin 0, XR.fin (xcorrAt (center x) (center y) 0 / (x.length * (std x * std y)))) := by
  have hd := den_pos hx hy
  set D := x.length * (std x * std y)
  have hxn : x ≠ [] := by rintro rfl; apply hx; intro a ha; simp at ha
  have hyn : y ≠ [] := by rintro rfl; apply hy; intro a ha; simp at ha
  have hxl := List.length_pos_iff.2 hxn
  have hyl := List.length_pos_iff.2 hyn
  unfold xcorrExtras
  rw [correlation_coeff (by decide +kernel)]
  have e : ((correlate (center x) (center y)).map fun v => XR.div v D) =
      (lagsOf x.length y.length).map fun (l : ℤ) => XR.fin (xcorrAt (center x) (center y) l / D) := by
    rw [correlate_eq, List.map_map]
    simp only [center_length]
    apply List.map_congr_left
    intro l _
    simp only [Function.comp_apply]
    rw [div_pos_fin _ hd.ne']
  rw [e]
  simp only [Except.map]
  congr 2
  · rw [zip_map_map]
  · have e2 : ((lagsOf x.length y.length).map fun (l : ℤ) => XR.fin (xcorrAt (center x) (center y) l / D)) =
        ((lagsOf x.length y.length).map fun (l : ℤ) => xcorrAt (center x) (center y) l / D).map XR.fin := by
      rw [List.map_map]; rfl
    rw [e2, filterMap_fin]
    have hne : ((lagsOf x.length y.length).length : ℝ) ≠ 0 := by
      have : 0 < (lagsOf x.length y.length).length := by simp; omega
      exact_mod_cast this.ne'
    congr 1
    · simp only [List.length_map, if_true]
      rw [div_pos_fin _ hne]
      have h1 : ((lagsOf x.length y.length).map fun (l : ℤ) => xcorrAt (center x) (center y) l / D).sum = 0 := by
        have h2 := sum_correlate (center x) (center y)
        rw [center_sum, zero_mul, correlate_eq] at h2
        simp only [center_length] at h2
        simp only [div_eq_mul_inv]
        rw [List.sum_map_mul_right, h2, zero_mul]
      rw [h1, zero_div]
    · have h0 : (0 : ℤ) ∈ lagsOf x.length y.length := by
        have := lagsOf_get (n := x.length) (m := y.length) (k := y.length - 1) (by omega)
        have h2 := List.mem_of_getElem? this
        rwa [show ((y.length - 1 : ℕ) : ℤ) - ((y.length : ℤ) - 1) = 0 by omega] at h2
      have hi := List.idxOf_lt_length_iff.2 h0
      rw [← e2, List.getElem?_map, List.getElem?_eq_getElem hi, List.getElem_idxOf]
      rfl

/-- C102: with `compute_xcorr=True` and non-constant signals of equal length, `mean_corr` is 0,
`zero_corr` is the correlation coefficient of the raw signals, and `peak_corr` is a number in [-1, 1]
exactly if the delay is within the recorded lags, else NaN; for a delay of `m` samples it is the
cross-correlation coefficient at lag `-m`. -/
theorem C102_extras (dt : ℝ) (hdt : 0 < dt) (x y : List ℝ) (hl : x.length = y.length) (hx : ¬ IsConst x) (hy : ¬ IsConst y)
    (delay : Option ℝ) :
    ∃ p : XR, xcorrExtras dt x y delay = .ok (p, .fin 0, .fin (xcorrAt (demean x) (demean y) 0 / normOf "coeff" x y)) ∧
      ((∃ v : ℝ, p = .fin v ∧ |v| ≤ 1 ∧ ∃ d, delay = some d ∧ |d| ≤ (x.length - 1) * dt) ∨
        (p = .nan ∧ ∀ d, delay = some d → (x.length - 1) * dt < |d|)) ∧
      ∀ m : ℤ, delay = some (m * dt) → |m| < x.length → p = .fin (xcorrAt (demean x) (demean y) (-m) / normOf "coeff" x y) := by
  have hd := den_pos hx hy
  have hn := divisor_norm "coeff" x y hl
  rw [divisor_coeff] at hn
  have hxn : x ≠ [] := by rintro rfl; apply hx; intro a ha; simp at ha
  have hxl := List.length_pos_iff.2 hxn
  rw [xcorrExtras_coeff dt x y hx hy, center_demean, center_demean]
  rw [hn] at hd ⊢
  set pts := (lagsOf x.length y.length).map fun (l : ℤ) => ((l : ℝ) * dt, XR.fin (xcorrAt (demean x) (demean y) l / normOf "coeff" x y)) with hpts
  have hsort : pts.Pairwise fun a b => a.1 < b.1 := by
    rw [hpts, List.pairwise_map]
    apply List.Pairwise.imp _ (lagsOf_sorted _ _)
    intro a b hab
    have : (a : ℝ) < b := by exact_mod_cast hab
    exact mul_lt_mul_of_pos_right this hdt
  have hbnd : ∀ p ∈ pts, ∃ v : ℝ, p.2 = .fin v ∧ |v| ≤ 1 := by
    intro p hp
    obtain ⟨l, -, rfl⟩ := List.mem_map.1 hp
    refine ⟨_, rfl, ?_⟩
    rw [abs_div, abs_of_pos hd, div_le_one hd]
    exact abs_xcorrAt_le _ _ _
  have hmem : ∀ m : ℤ, |m| < x.length → ((m : ℝ) * dt, XR.fin (xcorrAt (demean x) (demean y) m / normOf "coeff" x y)) ∈ pts := by
    intro m hm
    rw [abs_lt] at hm
    apply List.mem_map.2
    refine ⟨m, ?_, rfl⟩
    have := lagsOf_get (n := x.length) (m := y.length) (k := (m + (y.length - 1)).toNat) (by omega)
    have h2 := List.mem_of_getElem? this
    rwa [show (((m + (y.length - 1)).toNat : ℕ) : ℤ) - ((y.length : ℤ) - 1) = m by omega] at h2
  have hle : ∀ p ∈ pts, -((x.length - 1) * dt) ≤ p.1 ∧ p.1 ≤ (x.length - 1) * dt := by
    intro p hp
    obtain ⟨l, hl', rfl⟩ := List.mem_map.1 hp
    unfold lagsOf at hl'
    obtain ⟨k, hk, rfl⟩ := List.mem_map.1 hl'
    rw [List.mem_range] at hk
    have h1 : -((x.length : ℝ) - 1) ≤ (((k : ℤ) - (y.length - 1) : ℤ) : ℝ) := by
      have : -((x.length : ℤ) - 1) ≤ (k : ℤ) - (y.length - 1) := by omega
      exact_mod_cast this
    have h2 : (((k : ℤ) - (y.length - 1) : ℤ) : ℝ) ≤ (x.length : ℝ) - 1 := by
      have : (k : ℤ) - (y.length - 1) ≤ (x.length : ℤ) - 1 := by omega
      exact_mod_cast this
    constructor <;> nlinarith
  refine ⟨_, rfl, ?_, ?_⟩
  · cases delay with
    | none => right; exact ⟨rfl, by intro d hd; cases hd⟩
    | some d =>
      by_cases hin : |d| ≤ (x.length - 1) * dt
      · left
        rw [abs_le] at hin
        have e1 := hmem (-((x.length : ℤ) - 1)) (by rw [abs_lt]; omega)
        have e2 := hmem ((x.length : ℤ) - 1) (by rw [abs_lt]; omega)
        obtain ⟨v, hv⟩ := npInterp_in pts hsort (fun p hp => let ⟨v, h, _⟩ := hbnd p hp; ⟨v, h⟩) (-d)
          ⟨_, e1, by push_cast; linarith [hin.2]⟩ ⟨_, e2, by push_cast; linarith [hin.1]⟩
        rcases npInterp_bounded 1 pts hsort hbnd (-d) with h | ⟨w, hw, hb⟩
        · rw [hv] at h; cases h
        · exact ⟨w, hw, hb, d, rfl, abs_le.2 hin⟩
      · right
        push Not at hin
        refine ⟨?_, by intro d' hd'; rw [← Option.some.inj hd']; exact hin⟩
        apply npInterp_out
        rcases lt_abs.1 hin with h | h
        · left; intro p hp; have := (hle p hp).1; linarith
        · right; intro p hp; have := (hle p hp).2; linarith
  · rintro m hm hlt
    rw [hm]
    show npInterp pts (-(m * dt)) = _
    have := npInterp_node pts hsort (hmem (-m) (by rwa [abs_neg]))
    simp only [Int.cast_neg, neg_mul] at this
    exact this

example : ¬ IsConst [(1 : ℝ), 2, 4] := by
  intro h
  have := h 1 (by simp) 2 (by simp)
  norm_num at this

/-! ## C103 -/

/-- C103: the columns of a transfer function.  Equal numbers of inputs and outputs pair up in order, one
column is compared with all, anything else is a ValueError; the column names are `<input>_<output>`. -/
theorem C103_pairs (o : Opts) (ins outs : List (String × List ℝ)) (cols : List (String × List Row)) (h : averagedTf o ins outs = .ok cols) :
    (ins.length = outs.length ∧ cols.map Prod.fst = List.zipWith (fun a b => a.1 ++ "_" ++ b.1) ins outs) ∨
    (∃ b, outs = [b] ∧ cols.map Prod.fst = ins.map fun a => a.1 ++ "_" ++ b.1) ∨
    (∃ a, ins = [a] ∧ cols.map Prod.fst = outs.map fun b => a.1 ++ "_" ++ b.1) := by
  obtain ⟨ps, hps, -, -, -, rfl⟩ := averagedTf_ok h
  rw [List.map_map]
  unfold pairCols at hps
  split_ifs at hps with h1 h2 h3 <;> obtain rfl := Except.ok.inj hps
  · left
    refine ⟨h1.symm, ?_⟩
    rw [List.map_zipWith]; rfl
  · right; left
    obtain ⟨b, rfl⟩ := List.length_eq_one_iff.1 h2
    refine ⟨b, rfl, ?_⟩
    clear h h1 hps
    simp only [Function.comp_def]
    induction ins with
    | nil => rfl
    | cons a l ih =>
      simp only [List.flatMap_cons, List.map_append, List.map_cons, List.map_nil, List.cons_append, List.nil_append]
      rw [List.cons.injEq]
      exact ⟨rfl, by simpa using ih⟩
  · right; right
    obtain ⟨a, rfl⟩ := List.length_eq_one_iff.1 h3
    refine ⟨a, rfl, ?_⟩
    simp [Function.comp_def]

/-- C103, the error. -/
theorem C103_mismatch (o : Opts) (ins outs : List (String × List ℝ)) (h : ins.length ≠ outs.length) (hi : ins.length ≠ 1)
    (ho : outs.length ≠ 1) : Raises (averagedTf o ins outs) .valueError := by
  unfold Raises averagedTf pairCols
  rw [if_neg (fun e => h e.symm), if_neg ho, if_neg hi]

/-- C103: every column is the transfer function of its two columns alone. -/
theorem C103_independent (o : Opts) (n : ℕ) (ins outs : List (String × List ℝ)) (hi : ∀ p ∈ ins, p.2.length = n)
    (cols : List (String × List Row)) (h : averagedTf o ins outs = .ok cols) :
    ∀ col ∈ cols, ∃ a ∈ ins, ∃ b ∈ outs, averagedTf o [a] [b] = .ok [col] := by
  obtain ⟨ps, hps, h1, h2, h3, rfl⟩ := averagedTf_ok h
  intro col hcol
  obtain ⟨p, hp, rfl⟩ := List.mem_map.1 hcol
  obtain ⟨a, ha, b, hb, rfl⟩ := pairCols_mem hps p hp
  refine ⟨a, ha, b, hb, ?_⟩
  have hlen : (ins.headD ("", [])).2.length = a.2.length := by
    cases ins with
    | nil => simp at ha
    | cons q qs => rw [List.headD_cons, hi q (by simp), hi a ha]
  rw [hlen] at h2 h3 ⊢
  have hc : ¬ (a.2.length / o.navgs = 0 ∨ ((a.2.length / o.navgs : ℕ) : ℤ) ≤ pyInt ((a.2.length / o.navgs : ℕ) * o.overlap)) := by
    push Not; exact ⟨by omega, h3⟩
  show (if o.navgs = 0 then _ else (if (a.2.length / o.navgs = 0 ∨ ((a.2.length / o.navgs : ℕ) : ℤ) ≤ pyInt ((a.2.length / o.navgs : ℕ) * o.overlap))
    then _ else _)) = _
  rw [if_neg (by omega), if_neg hc]
  rfl

/-- C103: with compatible columns, at least one average per sample pair and an overlap in [0, 1) the
call succeeds. -/
theorem C103_succeeds (o : Opts) (n : ℕ) (ins outs : List (String × List ℝ)) (hi : ∀ p ∈ ins, p.2.length = n) (hne : ins ≠ [])
    (hc : ins.length = outs.length ∨ ins.length = 1 ∨ outs.length = 1) (hnav : 0 < o.navgs) (hn : o.navgs ≤ n)
    (hov : 0 ≤ o.overlap) (hov1 : o.overlap < 1) : ∃ cols, averagedTf o ins outs = .ok cols := by
  obtain ⟨ps, hps⟩ : ∃ ps, pairCols ins outs = .ok ps := by
    unfold pairCols
    split_ifs with h1 h2 h3
    · exact ⟨_, rfl⟩
    · exact ⟨_, rfl⟩
    · exact ⟨_, rfl⟩
    · exfalso; omega
  have hlen : (ins.headD ("", [])).2.length = n := by
    cases ins with
    | nil => exact absurd rfl hne
    | cons q qs => rw [List.headD_cons, hi q (by simp)]
  have hL : 0 < n / o.navgs := Nat.div_pos hn hnav
  have hLr : (0 : ℝ) < (n / o.navgs : ℕ) := by exact_mod_cast hL
  have hp : pyInt ((n / o.navgs : ℕ) * o.overlap) < (n / o.navgs : ℕ) := by
    unfold pyInt
    rw [if_pos (by positivity), Int.floor_lt]
    rw [Int.cast_natCast]
    nlinarith
  unfold averagedTf
  rw [hps]
  simp only [hlen]
  rw [if_neg hnav.ne', if_neg (by push Not; exact ⟨hL.ne', hp⟩)]
  exact ⟨_, rfl⟩

/-- The hypotheses of C100, C101 and C106 hold in a concrete case: three sites, two averages, the first site as reference. -/
example : ∃ res res', computeDelaysTf ⟨1, 2, 0.5, fun L => List.replicate L 1, .none⟩ [("a", [1, 2, 3, 5])] [("a", [1, 2, 3, 5]), ("b", [0, 1, 2, 3]), ("c", [1, 0, 0, 1])]
      (some 0.6) (some 0.4) "multi" = .ok res ∧
    fieldComputeDelays (fun L => List.replicate L 1) 1 [("a", [1, 2, 3, 5]), ("b", [0, 1, 2, 3]), ("c", [1, 0, 0, 1])] "a" 2 (some 0.6) (some 0.4) "multi" = .ok res' := by
  obtain ⟨tf, h⟩ := C103_succeeds ⟨1, 2, 0.5, fun L => List.replicate L 1, .none⟩ 4 [("a", [1, 2, 3, 5])] [("a", [1, 2, 3, 5]), ("b", [0, 1, 2, 3]), ("c", [1, 0, 0, 1])]
    (by simp) (by simp) (by simp) (by norm_num) (by norm_num) (by norm_num) (by norm_num)
  obtain ⟨res, h1, -⟩ := C101_limits_partial ⟨1, 2, 0.5, fun L => List.replicate L 1, .none⟩ _ _ (some 0.6) 0.4 tf h
  refine ⟨res, _, h1, by simp [fieldComputeDelays, h1, Except.map]; rfl⟩

example : ∃ cols, averagedTf ⟨1, 2, 0.5, fun L => List.replicate L 1, .none⟩ [("a", [1, 2, 3, 5])] [("b", [0, 1, 2, 3]), ("c", [1, 0, 0, 1])] = .ok cols :=
  C103_succeeds _ 4 _ _ (by simp) (by simp) (by simp) (by norm_num) (by norm_num) (by norm_num) (by norm_num)

/-! ## C104 -/

/-- C104 is violated for a Series: the `scaling` argument has no effect, not even an invalid one. -/
theorem C104_violated_series (o : Opts) (nm : String) (x : List ℝ) (s : String) :
    averagedPsd o true [(nm, x)] s = averagedPsd o false [(nm, x)] "density" := by
  unfold averagedPsd
  simp

/-- C104 is violated: a concrete Series for which 'spectrum' and 'density' should differ (4 and 1 at zero
frequency for the same data in a DataFrame). -/
theorem C104_violated_value : ∃ (o : Opts) (nm : String) (x : List ℝ), 
    averagedPsd o true [(nm, x)] "spectrum" ≠ averagedPsd o false [(nm, x)] "spectrum" := by
  refine ⟨⟨2, 1, 0, fun L => List.replicate L 1, .none⟩, "a", [1, 1], ?_⟩
  intro h
  have hp : pyInt (0 : ℝ) = 0 := by simp [pyInt]
  have hseg : segStarts 2 2 0 = [0] := segStarts_one (by norm_num)
  unfold averagedPsd at h
  simp [hp, hseg, psd, spectra, List.range_succ, Tf.segment, Tf.spectrum, Finset.sum_range_succ, detrend, at0, twiddle] at h
  norm_num [Complex.normSq_apply] at h

/-- C104 for a DataFrame: 'density' and 'spectrum' differ by the equivalent noise bandwidth of the
window, `fs Σw² / (Σw)²`, at every frequency. -/
theorem C104_frame_partial (o : Opts) (cols : List (String × List ℝ)) (d s : List (String × List (ℝ × ℝ))) (hdt : 0 < o.dt)
    (hd : averagedPsd o false cols "density" = .ok d) (hs : averagedPsd o false cols "spectrum" = .ok s)
    (hw : (o.win ((cols.headD ("", [])).2.length / o.navgs)).sum ≠ 0) :
    d.map Prod.fst = s.map Prod.fst ∧
    ∀ (i : ℕ) (c c' : String × List (ℝ × ℝ)), d[i]? = some c → s[i]? = some c' →
      c'.2 = c.2.map fun p => (p.1, p.2 * (((o.win ((cols.headD ("", [])).2.length / o.navgs)).map fun v => v ^ 2).sum /
        o.dt / (o.win ((cols.headD ("", [])).2.length / o.navgs)).sum ^ 2)) := by
  have hw2 : ((o.win ((cols.headD ("", [])).2.length / o.navgs)).map fun v => v ^ 2).sum ≠ 0 := by
    obtain ⟨v, hv, hv0⟩ : ∃ v ∈ o.win ((cols.headD ("", [])).2.length / o.navgs), v ≠ 0 := by
      by_contra hc
      push Not at hc
      exact hw (List.sum_eq_zero hc)
    exact (energyOf_pos ⟨v, hv, hv0⟩).ne'
  unfold averagedPsd at hd hs
  simp only [Bool.false_eq_true, if_false] at hd hs
  by_cases h1 : o.navgs = 0
  · rw [if_pos h1] at hd; cases hd
  rw [if_neg h1] at hd hs
  by_cases h2 : (cols.headD ("", [])).2.length / o.navgs = 0 ∨
      (((cols.headD ("", [])).2.length / o.navgs : ℕ) : ℤ) ≤ pyInt ((((cols.headD ("", [])).2.length / o.navgs : ℕ) : ℝ) * o.overlap)
  · rw [if_pos h2] at hd; cases hd
  rw [if_neg h2, if_neg (by decide)] at hd hs
  simp only [if_true, reduceIte, show ¬ ("spectrum" = "density") by decide] at hd hs
  obtain rfl := Except.ok.inj hd
  obtain rfl := Except.ok.inj hs
  constructor
  · rw [List.map_map, List.map_map]; rfl
  · intro i c c' hc hc'
    rw [List.getElem?_map] at hc hc'
    obtain ⟨p, hp, rfl⟩ := Option.map_eq_some_iff.1 hc
    rw [hp] at hc'
    obtain rfl := Option.some.inj hc'
    simp only [List.map_map]
    apply List.map_congr_left
    intro k _
    simp only [Function.comp_apply, Prod.mk.injEq, true_and]
    unfold psd
    field_simp

/-! ## C105 -/

/-- C105: power spectra are non-negative. -/
theorem C105_nonneg (o : Opts) (hdt : 0 < o.dt) (b : Bool) (cols : List (String × List ℝ)) (s : String) (d : List (String × List (ℝ × ℝ)))
    (hd : averagedPsd o b cols s = .ok d) : ∀ c ∈ d, ∀ p ∈ c.2, 0 ≤ p.1 ∧ 0 ≤ p.2 := by
  unfold averagedPsd at hd
  simp only at hd
  split_ifs at hd <;> obtain rfl := Except.ok.inj hd <;> intro c hc p hp <;> obtain ⟨q, -, rfl⟩ := List.mem_map.1 hc <;>
    obtain ⟨k, -, rfl⟩ := List.mem_map.1 hp <;> refine ⟨by positivity, ?_⟩ <;> unfold psd <;>
    apply mul_nonneg _ (div_nonneg (power_nonneg _) (by positivity)) <;> apply mul_nonneg (by split_ifs <;> norm_num)
  all_goals first
    | exact div_nonneg hdt.le (energyOf_nonneg _)
    | positivity

/-- C105 (Parseval): with one average, a rectangular window and no detrending, the power spectral
density times the frequency resolution adds up to the mean square of the signal. -/
theorem C105_parseval (dt ov : ℝ) (hdt : 0 < dt) (nm : String) (x : List ℝ) (b : Bool) (d : List (String × List (ℝ × ℝ)))
    (hd : averagedPsd ⟨dt, 1, ov, fun L => List.replicate L 1, .none⟩ b [(nm, x)] "density" = .ok d) :
    ∃ rows, d = [(nm, rows)] ∧ (rows.map fun p => p.2 * (1 / (x.length * dt))).sum = energyOf x / x.length := by
  unfold averagedPsd at hd
  simp only [List.headD_cons, Nat.div_one, one_ne_zero, if_false, ite_self] at hd
  by_cases h2 : x.length = 0 ∨ (x.length : ℤ) ≤ pyInt (x.length * ov)
  · rw [if_pos h2] at hd; cases hd
  rw [if_neg h2, if_neg (by decide)] at hd
  push Not at h2
  have hn : 0 < x.length := Nat.pos_of_ne_zero h2.1
  have hov : (pyInt (x.length * ov)).toNat < x.length := by omega
  simp only [reduceIte, List.map_cons, List.map_nil] at hd
  refine ⟨_, (Except.ok.inj hd).symm, ?_⟩
  rw [List.map_map]
  have hw : ((List.replicate x.length (1 : ℝ)).map fun (v : ℝ) => v ^ 2).sum = (x.length : ℝ) := by simp
  have e : ∀ k ∈ List.range (x.length / 2 + 1),
      ((fun p : ℝ × ℝ => p.2 * (1 / ((x.length : ℝ) * dt))) ∘ fun (k : ℕ) => ((k : ℝ) / ((x.length : ℝ) * dt),
        psd ((if k = 0 ∨ 2 * k = x.length then (1 : ℝ) else 2) * (dt / ((List.replicate x.length (1 : ℝ)).map fun v => v ^ 2).sum))
          (spectra (List.replicate x.length 1) .none x.length (pyInt (x.length * ov)).toNat x k))) k =
      ((if k = 0 ∨ 2 * k = x.length then (1 : ℝ) else 2) *
        Complex.normSq (∑ j ∈ Finset.range x.length, ((at0 x j : ℝ) : ℂ) * twiddle x.length (j * k))) * (1 / (x.length : ℝ) ^ 2) := by
    intro k _
    simp only [Function.comp_apply]
    unfold psd spectra
    rw [segStarts_one hov, hw]
    simp only [List.map_cons, List.map_nil, segment_all, spectrum_plain, List.sum_cons, List.sum_nil, add_zero, List.length_cons,
      List.length_nil]
    have : (x.length : ℝ) ≠ 0 := by exact_mod_cast hn.ne'
    field_simp
    norm_num
  rw [List.map_congr_left e, List.sum_map_mul_right]
  have e2 := fold_sum x.length hn (fun (k : ℕ) => Complex.normSq (∑ j ∈ Finset.range x.length, ((at0 x j : ℝ) : ℂ) * twiddle x.length (j * k)))
    (fun k _ h => normSq_symm x h)
  rw [parseval x hn] at e2
  have e3 : (∑ j ∈ Finset.range x.length, at0 x j ^ 2) = energyOf x := by
    rw [← sum_ext_sq]
    exact Finset.sum_congr rfl fun j _ => by rw [at0_ext]
  rw [e3] at e2
  have e4 : ((List.range (x.length / 2 + 1)).map fun (k : ℕ) => (if k = 0 ∨ 2 * k = x.length then (1 : ℝ) else 2) *
        Complex.normSq (∑ j ∈ Finset.range x.length, ((at0 x j : ℝ) : ℂ) * twiddle x.length (j * k))).sum = x.length * energyOf x := e2
  rw [e4]
  have : (x.length : ℝ) ≠ 0 := by exact_mod_cast hn.ne'
  field_simp

/-- The hypotheses of C104 and C105 hold in a concrete case. -/
example : ∃ d s, averagedPsd ⟨10, 1, 0.5, fun L => List.replicate L 1, .none⟩ false [("a", [1, 2])] "density" = .ok d ∧
    averagedPsd ⟨10, 1, 0.5, fun L => List.replicate L 1, .none⟩ false [("a", [1, 2])] "spectrum" = .ok s ∧
    ((List.replicate (2 / 1) 1 : List ℝ)).sum ≠ 0 := by
  have : pyInt ((2 : ℝ) * 0.5) = 1 := by unfold pyInt; norm_num
  exact ⟨_, _, by simp [averagedPsd, this]; rfl, by simp [averagedPsd, this]; rfl, by simp⟩

/-! ## C106 -/

theorem unwrapFrom_zero (p c : Option ℝ) (l : List (Option ℝ)) (hp : p = none ∨ p = some 0) (hc : c = none ∨ c = some 0)
    (h : ∀ q ∈ l, q = none ∨ q = some 0) : ∀ q ∈ unwrapFrom p c l, q = none ∨ q = some 0 := by
  induction l generalizing p c with
  | nil => simp [unwrapFrom]
  | cons a l ih =>
    have ha := h a (by simp)
    have hs : oadd c (ostep p a) = none ∨ oadd c (ostep p a) = some 0 := by
      rcases hp with rfl | rfl <;> rcases hc with rfl | rfl <;> rcases ha with rfl | rfl <;>
        simp [oadd, ostep, corrStep, Real.pi_pos]
    intro q hq
    rw [unwrapFrom, List.mem_cons] at hq
    rcases hq with rfl | hq
    · rcases hs with e | e <;> rw [e] <;> rcases ha with rfl | rfl <;> simp [oadd]
    · exact ih a _ ha hs (fun q hq => h q (by simp [hq])) q hq

theorem multi_zero (cohLim freqLim : Option ℝ) (rows : List Row) (h : ∀ r ∈ rows, r.tf = none ∨ r.tf = some 1)
    (hne : ∃ r ∈ rows, r.tf ≠ none) : multiDelay cohLim freqLim rows = some 0 := by
  classical
  have hu : ∀ p ∈ multiUsed cohLim freqLim rows, p.2 = 0 := by
    intro p hp
    unfold multiUsed at hp
    simp only at hp
    obtain ⟨q, hq, he⟩ := List.mem_filterMap.1 hp
    have h2 := (List.of_mem_zip hq).2
    set sub := rows.filter fun r => decide (FreqOk freqLim r.f) with hsub
    have ha : ∀ q ∈ sub.map (fun r => angle r.tf), q = none ∨ q = some 0 := by
      intro q hq
      obtain ⟨r, hr, rfl⟩ := List.mem_map.1 hq
      rcases h r (List.mem_of_mem_filter hr) with e | e <;> simp [angle, e]
    have h3 : q.2 = none ∨ q.2 = some 0 := by
      cases hl : sub.map (fun r => angle r.tf) with
      | nil => rw [hl] at h2; simp [unwrap] at h2
      | cons a l =>
        rw [hl] at h2 ha
        rw [unwrap, List.mem_cons] at h2
        rcases h2 with e | h2
        · rw [e]; exact ha a (by simp)
        · exact unwrapFrom_zero a (some 0) l (ha a (by simp)) (Or.inr rfl) (fun q hq => ha q (by simp [hq])) _ h2
    split_ifs at he
    rcases h3 with e | e
    · rw [e] at he; simp at he
    · rw [e] at he
      rw [← Option.some.inj he]
  have hs : ((multiUsed cohLim freqLim rows).map Prod.snd).sum = 0 := by
    apply List.sum_eq_zero
    intro v hv
    obtain ⟨p, hp, rfl⟩ := List.mem_map.1 hv
    exact hu p hp
  have hn : ¬ ∀ r ∈ rows, r.tf = none := by push Not; exact hne
  unfold multiDelay
  rw [if_neg hn]
  simp only [hs]
  split_ifs <;> simp

/-- C106: an unknown reference is a KeyError. -/
theorem C106_unknown (ham : ℕ → List ℝ) (dt : ℝ) (df : List (String × List ℝ)) (ref : String) (navgs : ℕ) (cohLim freqLim : Option ℝ)
    (method : String) (h : ∀ p ∈ df, p.1 ≠ ref) : Raises (fieldComputeDelays ham dt df ref navgs cohLim freqLim method) .keyError := by
  unfold Raises fieldComputeDelays
  rw [List.find?_eq_none.2 (by simpa using h)]

/-- The hypothesis holds in a concrete case. -/
example : Raises (fieldComputeDelays (fun L => List.replicate L 1) 1 [("a", [1, 2]), ("b", [0, 1])] "z" 1 none none "multi") .keyError :=
  C106_unknown _ 1 _ "z" 1 none none "multi" (by simp)

/-- C106: one delay per column of the frame; the entry of the reference itself is delay 0 (given any
power at all) and mean coherence 1 (given power at all frequencies below the limit). -/
theorem C106_reference (ham : ℕ → List ℝ) (dt : ℝ) (df : List (String × List ℝ)) (hnames : (df.map Prod.fst).Nodup) (ref : String) (navgs : ℕ)
    (cohLim : Option ℝ) (fl : ℝ) (res : List (Option ℝ) × List XR)
    (h : fieldComputeDelays ham dt df ref navgs cohLim (some fl) "multi" = .ok res) :
    res.1.length = df.length ∧ res.2.length = df.length ∧
    ∀ (i : ℕ) (x : List ℝ), df[i]? = some (ref, x) → ∀ nm rows, averagedTf ⟨dt, navgs, 0.5, ham, .none⟩ [(ref, x)] [(ref, x)] = .ok [(nm, rows)] →
      ((∃ r ∈ rows, r.tf ≠ none) → res.1[i]? = some (some 0)) ∧
      (0 < fl → (∀ r ∈ rows, r.f < fl → r.tf ≠ none) → res.2[i]? = some (.fin 1)) := by
  classical
  unfold fieldComputeDelays at h
  cases hf : df.find? fun p => decide (p.1 = ref) with
  | none => rw [hf] at h; cases h
  | some p =>
    rw [hf] at h
    simp only at h
    have hp1 : p.1 = ref := by simpa using List.find?_some hf
    have hpm : p ∈ df := List.mem_of_find?_eq_some hf
    cases hc : computeDelaysTf ⟨dt, navgs, 0.5, ham, .none⟩ [p] df cohLim (some fl) "multi" with
    | error e => rw [hc] at h; cases h
    | ok t =>
      rw [hc] at h
      obtain rfl := Except.ok.inj h
      obtain ⟨tf, fl', htf, hfl, -, -, rfl⟩ := computeDelaysTf_ok hc
      obtain rfl := Option.some.inj hfl
      obtain ⟨ps, hps, -, -, -, rfl⟩ := averagedTf_ok htf
      have hps' : ps = df.map fun q => (p.1 ++ "_" ++ q.1, p.2, q.2) := by
        unfold pairCols at hps
        split_ifs at hps with h1 h2 <;> obtain rfl := Except.ok.inj hps
        · obtain ⟨q, rfl⟩ := List.length_eq_one_iff.1 h1
          rfl
        · simp
        · simp
      subst hps'
      simp only [List.length_map, true_and]
      intro i x hi nm rows hr
      have hpx : p = (ref, x) := by
        have h1 : (ref, x) ∈ df := List.mem_of_getElem? hi
        exact List.inj_on_of_nodup_map hnames hpm h1 hp1
      subst hpx
      obtain ⟨-, hL, -, e⟩ := averagedTf_pair _ _ _ _ _ hr
      simp only [List.cons.injEq, Prod.mk.injEq, and_true] at e
      have hrow := C44_self _ _ _ _ _ hr (nm, rows) (by simp)
      simp only at hrow
      simp only [List.getElem?_map, hi, Option.map_some, show ¬ ("multi" = "fit") by decide, if_false]
      simp only [List.headD_cons]
      rw [← e.2]
      constructor
      · intro hne
        rw [multi_zero]
        · intro r hr'; rcases hrow r hr' with h | h <;> simp [h.1]
        · exact hne
      · intro hpos hall
        have hg := pairTf_get ⟨dt, navgs, 0.5, ham, .none⟩ (x.length / navgs) (pyInt ((x.length / navgs : ℕ) * 0.5)).toNat x x (k := 0) (Nat.succ_pos _)
        rw [← e.2] at hg
        have hm := List.mem_of_getElem? hg
        unfold meanCoh
        simp only
        set sub := rows.filter fun r => decide (r.f < fl) with hsub
        have hne : sub ≠ [] := by
          intro hnil
          rw [hsub, List.filter_eq_nil_iff] at hnil
          exact hnil _ hm (decide_eq_true (by simpa using hpos))
        have hlen : (sub.length : ℝ) ≠ 0 := by exact_mod_cast (List.length_pos_iff.2 hne).ne'
        have hs : sub.filterMap Row.coh = List.replicate sub.length 1 := by
          have hall' : ∀ r ∈ sub, r.coh = some 1 := by
            intro r hr'
            rw [hsub, List.mem_filter] at hr'
            rcases hrow r hr'.1 with h | h
            · exact absurd h.1 (hall r hr'.1 (of_decide_eq_true hr'.2))
            · exact h.2
          clear_value sub
          clear hsub hne hlen
          induction sub with
          | nil => rfl
          | cons r l ih =>
            rw [List.filterMap_cons_some (hall' r (by simp)), ih (fun r hr => hall' r (by simp [hr]))]
            rfl
        rw [hs, div_pos_fin _ hlen]
        simp [div_self hlen]

/-! ## C107 -/

/-- C107 is violated by 'fit': two different pairs of columns can get the same name, and then 'fit' fails
where 'multi' succeeds.  Columns "a_b", "a" compared with "c", "b_c" give "a_b_c" twice. -/
theorem C107_violated (o : Opts) (x1 x2 y1 y2 : List ℝ) (cohLim : Option ℝ) (fl : ℝ) (tf : List (String × List Row))
    (h : averagedTf { o with detr := .none } [("a_b", x1), ("a", x2)] [("c", y1), ("b_c", y2)] = .ok tf) :
    Raises (computeDelaysTf o [("a_b", x1), ("a", x2)] [("c", y1), ("b_c", y2)] cohLim (some fl) "fit") .valueError ∧
    ∃ res, computeDelaysTf o [("a_b", x1), ("a", x2)] [("c", y1), ("b_c", y2)] cohLim (some fl) "multi" = .ok res ∧ res.length = 2 := by
  have hn : tf.map Prod.fst = ["a_b_c", "a_b_c"] := by
    obtain ⟨ps, hps, -, -, -, rfl⟩ := averagedTf_ok h
    obtain rfl := Except.ok.inj hps
    rw [List.map_map]
    simp only [List.zipWith_cons_cons, List.zipWith_nil_left, List.map_cons, List.map_nil, Function.comp_apply]
    decide +kernel
  constructor
  · unfold Raises computeDelaysTf
    rw [if_neg (by simp), h]
    simp only
    rw [if_pos]
    rw [hn]
    exact ⟨trivial, by decide⟩
  · obtain ⟨res, h1, h2⟩ := C101_limits_partial o _ _ cohLim fl tf h
    refine ⟨res, h1, ?_⟩
    obtain ⟨tf', fl', e1, -, -, -, rfl⟩ := computeDelaysTf_ok h1
    rw [e1] at h
    obtain rfl := Except.ok.inj h
    have := congrArg List.length hn
    simpa using this

/-- The hypothesis holds in a concrete case. -/
example : ∃ tf, averagedTf ⟨1, 1, 0.5, fun L => List.replicate L 1, .none⟩ [("a_b", [1, 2]), ("a", [0, 1])] [("c", [3, 1]), ("b_c", [1, 1])] = .ok tf :=
  C103_succeeds _ 2 _ _ (by simp) (by simp) (by simp) (by norm_num) (by norm_num) (by norm_num) (by norm_num)

/-- C107 with distinct pair names: 'fit' succeeds whenever the transfer functions exist, and its delays and
masks are those of `tf_delay` on each column. -/
theorem C107_distinct_partial (o : Opts) (ins outs : List (String × List ℝ)) (cohLim : Option ℝ) (fl : ℝ) (tf : List (String × List Row))
    (h : averagedTf { o with detr := .none } ins outs = .ok tf) (hn : (tf.map Prod.fst).Nodup) :
    ∃ res, computeDelaysTf o ins outs cohLim (some fl) "fit" = .ok res ∧ res.length = tf.length ∧
      ∀ (i : ℕ) (c : String × List Row) (t : Option ℝ × List Bool × XR), tf[i]? = some c → res[i]? = some t →
        tfDelay [c.2] cohLim (some fl) "fit" = .ok ([t.1], [t.2.1]) := by
  have h1 : ¬ (1 < ins.length ∧ 1 < outs.length ∧ ins.length ≠ outs.length) := by
    rintro ⟨a, b, c⟩
    obtain ⟨ps, hps, -⟩ := averagedTf_ok h
    unfold pairCols at hps
    rw [if_neg (fun e => c e.symm), if_neg (by omega), if_neg (by omega)] at hps
    cases hps
  refine ⟨tf.map fun p => (fitDelay cohLim (some fl) p.2, maskOf cohLim (some fl) p.2, meanCoh fl p.2), ?_, by simp, ?_⟩
  · unfold computeDelaysTf
    rw [if_neg h1, h]
    simp [hn]
  · intro i c t hc ht
    rw [List.getElem?_map, hc] at ht
    obtain rfl := Option.some.inj ht
    rfl

/-- The hypotheses hold in a concrete case: names without underscore. -/
example : ∃ tf, averagedTf ⟨1, 1, 0.5, fun L => List.replicate L 1, .none⟩ [("a", [1, 2]), ("b", [0, 1])] [("c", [3, 1]), ("d", [1, 1])] = .ok tf ∧
    (tf.map Prod.fst).Nodup := by
  have : pyInt ((2 : ℝ) * 0.5) = 1 := by unfold pyInt; norm_num
  exact ⟨_, by simp [averagedTf, pairCols, this]; rfl, by decide +kernel⟩

end SST.Props.Tf
