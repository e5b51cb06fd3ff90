import Verif.Props.Cmv
import Verif.Spec.CmvText

/-!
# C241: what the flags of `compute_cmv` say about the pairs
-/

namespace SST.Props.CmvText
open SST SST.Cmv SST.Spatial SST.Spec SST.Props.Cmv

variable {ι : Type} [DecidableEq ι]

/-! ## C241 -/

theorem options_of {method : String} {options : Option Dict} {o : Dict} (hv : (validateOptions method options).1 = .ok o)
    (hm : method = "jamaly" ∨ method = "gagne") (k : String) (v : ℝ) (hk : (k, v) ∈ documented method) :
    opt o k = (dictGet? (options.getD []) k).getD v := by
  obtain ⟨h1, h2⟩ := C28_validation _ hm options
  by_cases hall : ∀ kv ∈ options.getD [], kv.1 ∈ (documented method).map Prod.fst
  · obtain ⟨o', ho', -, h3⟩ := h1 hall
    rw [hv] at ho'
    cases ho'
    unfold opt
    rw [h3 k v hk]
    rfl
  · push Not at hall
    have := h2 hall
    rw [hv] at this
    cases this

theorem rows_of {x : Ext} {ts : List (ι × List (Option ℝ))} {pos : List (ι × Vec)} {ref : RefArg ι} {method backend : String} {options : Option Dict} {out : Out ι}
    (h : (computeCmv x ts pos ref method backend options).1 = .ok out) :
    ∃ o, (∀ k v, (k, v) ∈ documented method.toLower → opt o k = (dictGet? (options.getD []) k).getD v) ∧
      (method.toLower = "jamaly" → ∀ r ∈ out.rows, r.2 = pairFlag "jamaly" o r.1) ∧
      (method.toLower = "gagne" → ∃ t, 0.9 ≤ t ∧ t ≤ 0.99 ∧ (∀ r ∈ out.rows, r.2 = (open Classical in if ∃ v, r.1.peak = some v ∧ t ≤ v then pairFlag "gagne" o r.1 else .lowcorr))) := by
  obtain ⟨stats, o, -, hv, rfl, hm⟩ := computeCmv_ok h
  refine ⟨o, options_of hv hm, fun hj r hr => ?_, fun hg => ?_⟩
  · rw [finish_rows, hj, if_neg (by decide)] at hr
    obtain ⟨p, -, rfl⟩ := List.mem_map.1 hr
    rfl
  · rw [hg]
    obtain ⟨t, ht, hrows, -, -⟩ := C32_gagne_threshold x o stats
    refine ⟨t, ?_, ?_, fun r hr => ?_⟩
    · rcases ht with ⟨rfl, -⟩ | ⟨rfl, -⟩ | ⟨rfl, -⟩ <;> norm_num
    · rcases ht with ⟨rfl, -⟩ | ⟨rfl, -⟩ | ⟨rfl, -⟩ <;> norm_num
    · rw [hrows] at hr
      obtain ⟨p, -, rfl⟩ := List.mem_map.1 hr
      rfl

/-- C241 (the part that holds): every pair that carries a flag meets the condition of that flag. NOSIGNAL: a standard deviation below 0.001; OVERCAST: one signal never
reaches `ktlim`; LOWCORR: correlations NaN, below `mincorr` or with a low ratio (jamaly), below 0.99 (gagne); VELLIMIT: not strictly inside the velocity limits. No pair
carries LOWCCF, STATS, ALLBAD or TREND. -/
theorem C241_conditions_partial (x : Ext) (ts : List (ι × List (Option ℝ))) (pos : List (ι × Vec)) (ref : RefArg ι) (method backend : String) (options : Option Dict)
    (out : Out ι) (h : (computeCmv x ts pos ref method backend options).1 = .ok out) :
    ∃ o, (∀ k v, (k, v) ∈ documented method.toLower → opt o k = (dictGet? (options.getD []) k).getD v) ∧ ∀ r ∈ out.rows,
      (r.2 = .same → TextHolds o r.1 .same) ∧ (r.2 = .nolag → TextHolds o r.1 .nolag) ∧ (r.2 = .lowvarS → method.toLower = "jamaly" ∧ TextHolds o r.1 .lowvarS) ∧
      (r.2 = .nosignal → StdBelow r.1.sigA 0.001 ∨ StdBelow r.1.sigB 0.001) ∧
      (r.2 = .overcast → MaxBelow r.1.sigA (opt o "ktlim") ∨ MaxBelow r.1.sigB (opt o "ktlim")) ∧
      (r.2 = .lowcorr → r.1.peak = none ∨ r.1.meanCorr = none ∨ (method.toLower = "jamaly" ∧ LowCorrelation r.1.peak r.1.meanCorr (opt o "mincorr")) ∨
        (method.toLower = "gagne" ∧ ∃ k, r.1.peak = some k ∧ k < 0.99)) ∧
      (r.2 = .vellimit → method.toLower = "jamaly" ∧ ¬ VelocityInside (magnitude r.1.vec) r.1.delay (opt o "minvelocity") (opt o "maxvelocity")) ∧
      r.2 ≠ .lowccf ∧ r.2 ≠ .stats ∧ r.2 ≠ .allbad ∧ r.2 ≠ .trend := by
  have hm : method.toLower = "jamaly" ∨ method.toLower = "gagne" := by
    obtain ⟨_, _, -, -, -, hm⟩ := computeCmv_ok h
    exact hm
  obtain ⟨o, ho, hj, hg⟩ := rows_of h
  refine ⟨o, ho, fun r hr => ?_⟩
  have key : ∀ m f, pairFlag m o r.1 = f → f = .good ∨ ∃ c ∈ checks m o r.1, c.1 = f ∧ c.2 := by
    intro m f hf
    rcases pairFlag_last m o r.1 with ⟨a, -⟩ | ⟨l1, c, l2, h1, h2, h3, -⟩
    · exact Or.inl (hf.symm.trans a)
    · exact Or.inr ⟨c, by rw [h1]; simp, h3.trans hf, h2⟩
  rcases hm with hm | hm
  · have hr2 := hj hm r hr
    have k := key "jamaly" r.2 hr2.symm
    simp only [checks, if_true, List.cons_append, List.nil_append, List.mem_cons, List.not_mem_nil, or_false, exists_eq_or_imp, exists_eq_left] at k
    rw [hm]
    generalize r.2 = f at k
    cases f <;> simp [TextHolds] at k ⊢
    all_goals first
      | exact k
      | tauto
  · obtain ⟨t, t0, t1, hrows⟩ := hg hm
    have hr2 := hrows r hr
    rw [hm]
    by_cases hp : ∃ v, r.1.peak = some v ∧ t ≤ v
    · rw [if_pos hp] at hr2
      have k := key "gagne" r.2 hr2.symm
      simp only [checks, if_neg (show ¬ "gagne" = "jamaly" by decide), List.append_nil, List.mem_cons, List.not_mem_nil, or_false, exists_eq_or_imp, exists_eq_left] at k
      generalize r.2 = f at k
      cases f <;> simp [TextHolds] at k ⊢
      all_goals first
        | exact k
        | tauto
    · rw [if_neg hp] at hr2
      rw [hr2]
      simp only [reduceCtorEq, false_implies, true_implies, ne_eq, not_false_eq_true, and_true, true_and]
      push Not at hp
      cases hk : r.1.peak with
      | none => exact Or.inl rfl
      | some k =>
        have := hp k hk
        exact Or.inr (Or.inr (Or.inr ⟨k, rfl, by linarith⟩))

/-- The value of an option of a call: the user's, else the documented default. -/
noncomputable def optionOf (options : Option Dict) (k : String) (dflt : ℝ) : ℝ := (dictGet? (options.getD []) k).getD dflt

theorem flag_overcast (o : Dict) (p : PairStat ι) (h : MaxBelow p.sigA (opt o "ktlim") ∨ MaxBelow p.sigB (opt o "ktlim")) : pairFlag "gagne" o p = .overcast := by
  unfold pairFlag
  have h' : ltO (nanmax p.sigA) (optVal o "ktlim") ∨ ltO (nanmax p.sigB) (optVal o "ktlim") := by rw [ltO_nanmax, ltO_nanmax]; exact h
  simp [h']

/-- C241 violated: OVERCAST ("low overall kt in both signals") is given when only one signal is low. -/
theorem C241_violated_overcast (x : Ext) (ts : List (ι × List (Option ℝ))) (pos : List (ι × Vec)) (ref : RefArg ι) (method backend : String) (options : Option Dict)
    (out : Out ι) (h : (computeCmv x ts pos ref method backend options).1 = .ok out) (hm : method.toLower = "gagne") (r : PairStat ι × Flag) (hr : r ∈ out.rows)
    (hA : MaxBelow r.1.sigA (optionOf options "ktlim" 0.4)) (hB : ¬ MaxBelow r.1.sigB (optionOf options "ktlim" 0.4)) (hp : ∃ k, r.1.peak = some k ∧ 0.99 ≤ k) :
    r.2 = .overcast ∧ ∀ o, opt o "ktlim" = optionOf options "ktlim" 0.4 → ¬ TextHolds o r.1 .overcast := by
  obtain ⟨o, ho, -, hg⟩ := rows_of h
  obtain ⟨t, -, t1, hrows⟩ := hg hm
  have hk := ho "ktlim" 0.4 (by rw [hm]; simp [documented])
  refine ⟨?_, fun o' ho' ht => hB (ho' ▸ ht.2)⟩
  obtain ⟨k, hk1, hk2⟩ := hp
  rw [hrows r hr, if_pos ⟨k, hk1, t1.trans hk2⟩]
  exact flag_overcast o r.1 (Or.inl (by rw [hk]; exact hA))

/-- C241 violated: with gagne, LOWCORR ("low lagging correlation (<0.8)") is given to every correlation below 0.9. -/
theorem C241_violated_lowcorr (x : Ext) (ts : List (ι × List (Option ℝ))) (pos : List (ι × Vec)) (ref : RefArg ι) (method backend : String) (options : Option Dict)
    (out : Out ι) (h : (computeCmv x ts pos ref method backend options).1 = .ok out) (hm : method.toLower = "gagne") (r : PairStat ι × Flag) (hr : r ∈ out.rows)
    (k : ℝ) (hp : r.1.peak = some k) (h0 : 0.8 ≤ k) (h1 : k < 0.9) : r.2 = .lowcorr ∧ ∀ o, ¬ TextHolds o r.1 .lowcorr := by
  obtain ⟨o, ho, -, hg⟩ := rows_of h
  obtain ⟨t, t0, -, hrows⟩ := hg hm
  refine ⟨?_, ?_⟩
  · rw [hrows r hr, if_neg]
    rintro ⟨v, hv, hv'⟩
    rw [hp, Option.some.injEq] at hv
    linarith
  · rintro o' ⟨v, hv, hv'⟩
    rw [hp, Option.some.injEq] at hv
    linarith

/-- C241 violated: VELLIMIT ("Low velocity limit") is given to pairs that are too fast. -/
theorem C241_violated_vellimit (x : Ext) (ts : List (ι × List (Option ℝ))) (pos : List (ι × Vec)) (ref : RefArg ι) (method backend : String) (options : Option Dict)
    (out : Out ι) (h : (computeCmv x ts pos ref method backend options).1 = .ok out) (hm : method.toLower = "jamaly") (r : PairStat ι × Flag) (hr : r ∈ out.rows)
    (t : ℝ) (ht : r.1.delay = some t) (h0 : t ≠ 0) (h1 : optionOf options "maxvelocity" 70 ≤ magnitude r.1.vec / |t|)
    (h2 : optionOf options "minvelocity" 0 < magnitude r.1.vec / |t|) :
    r.2 = .vellimit ∧ ∀ o, opt o "minvelocity" = optionOf options "minvelocity" 0 → ¬ TextHolds o r.1 .vellimit := by
  obtain ⟨o, ho, hj, -⟩ := rows_of h
  have hk := ho "maxvelocity" 70 (by rw [hm]; simp [documented])
  refine ⟨?_, ?_⟩
  · rw [hj hm r hr]
    rcases pairFlag_last "jamaly" o r.1 with ⟨-, a⟩ | ⟨l1, c, l2, e1, e2, e3, e4⟩
    · exfalso
      have := a (.vellimit, ¬ VelocityInside (magnitude r.1.vec) r.1.delay (opt o "minvelocity") (opt o "maxvelocity")) (by simp [checks])
      obtain ⟨t', ht', -, -, b⟩ := not_not.1 this
      rw [ht, Option.some.injEq] at ht'
      subst ht'
      rw [hk] at b
      unfold optionOf at h1
      linarith
    · rcases List.eq_nil_or_concat l2 with rfl | ⟨l, d, rfl⟩
      · have hl := congrArg List.getLast? e1
        simp [checks] at hl
        rw [← e3, ← hl]
      · have e1' : checks "jamaly" o r.1 = (l1 ++ c :: l) ++ [d] := by rw [e1]; simp
        have hl := congrArg List.getLast? e1'
        rw [List.getLast?_concat] at hl
        have : d = (.vellimit, ¬ VelocityInside (magnitude r.1.vec) r.1.delay (opt o "minvelocity") (opt o "maxvelocity")) := by
          simp [checks] at hl
          exact hl.symm
        exfalso
        have e := e4 d (by simp)
        rw [this] at e
        obtain ⟨t', ht', -, -, b⟩ := not_not.1 e
        rw [ht, Option.some.injEq] at ht'
        subst ht'
        rw [hk] at b
        unfold optionOf at h1
        linarith
  · rintro o' ho' ⟨t', ht', -, b⟩
    rw [ht, Option.some.injEq] at ht'
    subst ht'
    rw [ho'] at b
    linarith

/-- C241 violated: NOSIGNAL ("one signal has zero variance") is given to signals that vary a little. -/
theorem C241_violated_nosignal (x : Ext) (ts : List (ι × List (Option ℝ))) (pos : List (ι × Vec)) (ref : RefArg ι) (method backend : String) (options : Option Dict)
    (out : Out ι) (h : (computeCmv x ts pos ref method backend options).1 = .ok out) (hm : method.toLower = "gagne") (r : PairStat ι × Flag) (hr : r ∈ out.rows)
    (hA : StdBelow r.1.sigA 0.001) (hvA : ¬ NoVariance r.1.sigA) (hvB : ¬ NoVariance r.1.sigB) (hd : r.1.delay ≠ some 0) (hp : ∃ k, r.1.peak = some k ∧ 0.99 ≤ k)
    (hmc : r.1.meanCorr ≠ none) (hA2 : ¬ MaxBelow r.1.sigA (optionOf options "ktlim" 0.4)) (hB2 : ¬ MaxBelow r.1.sigB (optionOf options "ktlim" 0.4)) :
    r.2 = .nosignal ∧ ∀ o, ¬ TextHolds o r.1 .nosignal := by
  obtain ⟨o, ho, -, hg⟩ := rows_of h
  obtain ⟨t, -, t1, hrows⟩ := hg hm
  have hk := ho "ktlim" 0.4 (by rw [hm]; simp [documented])
  obtain ⟨k, hk1, hk2⟩ := hp
  refine ⟨?_, fun o' ht => ht.elim hvA hvB⟩
  rw [hrows r hr, if_pos ⟨k, hk1, t1.trans hk2⟩]
  have hmA : ¬ (ltO (nanmax r.1.sigA) (optVal o "ktlim") ∨ ltO (nanmax r.1.sigB) (optVal o "ktlim")) := by
    rw [ltO_nanmax, ltO_nanmax]
    change ¬ (MaxBelow r.1.sigA (opt o "ktlim") ∨ MaxBelow r.1.sigB (opt o "ktlim"))
    rw [hk]
    exact fun h => h.elim hA2 hB2
  have hs : ltO (nanstd r.1.sigA) 0.001 ∨ ltO (nanstd r.1.sigB) 0.001 := Or.inl (ltO_nanstd.2 hA)
  unfold pairFlag
  simp [hmA, hs, hd, hk1, hmc]

/-- C241 violated: a pair for which no lag could be computed (NaN) is not NOLAG but, with gagne, GOOD if nothing else is wrong with it. -/
theorem C241_violated_nolag (x : Ext) (ts : List (ι × List (Option ℝ))) (pos : List (ι × Vec)) (ref : RefArg ι) (method backend : String) (options : Option Dict)
    (out : Out ι) (h : (computeCmv x ts pos ref method backend options).1 = .ok out) (hm : method.toLower = "gagne") (r : PairStat ι × Flag) (hr : r ∈ out.rows)
    (hab : r.1.a ≠ r.1.b) (hA : ¬ StdBelow r.1.sigA 0.001) (hB : ¬ StdBelow r.1.sigB 0.001) (hd : r.1.delay = none) (hp : ∃ k, r.1.peak = some k ∧ 0.99 ≤ k)
    (hmc : r.1.meanCorr ≠ none) (hA2 : ¬ MaxBelow r.1.sigA (optionOf options "ktlim" 0.4)) (hB2 : ¬ MaxBelow r.1.sigB (optionOf options "ktlim" 0.4)) :
    r.2 = .good := by
  obtain ⟨o, ho, -, hg⟩ := rows_of h
  obtain ⟨t, -, t1, hrows⟩ := hg hm
  have hk := ho "ktlim" 0.4 (by rw [hm]; simp [documented])
  obtain ⟨k, hk1, hk2⟩ := hp
  rw [hrows r hr, if_pos ⟨k, hk1, t1.trans hk2⟩, C26_good_iff]
  refine ⟨hab, hA, hB, by simp [hd], by simp [hk1], hmc, by rw [hk]; exact hA2, by rw [hk]; exact hB2, fun h => absurd h (by decide)⟩

/-- C241 violated: ALLBAD ("no good datapoints") is the overall flag of every gagne result with fewer than 12 pairs, also if GOOD pairs gave a motion. -/
theorem C241_violated_allbad (x : Ext) (ts : List (ι × List (Option ℝ))) (pos : List (ι × Vec)) (ref : RefArg ι) (method backend : String) (options : Option Dict)
    (out : Out ι) (h : (computeCmv x ts pos ref method backend options).1 = .ok out) (hm : method.toLower = "gagne") (hn : out.rows.length < 12) : out.flag = .allbad := by
  obtain ⟨stats, o, -, hv, rfl, -⟩ := computeCmv_ok h
  rw [hm] at hn ⊢
  obtain ⟨t, ht, hrows, ha, -⟩ := C32_gagne_threshold x o stats
  apply ha
  rw [hrows, List.length_map] at hn
  exact (List.countP_le_length ..).trans_lt hn

/-- The exact motion (1, 1) of three sites, two GOOD pairs, and the flag "no good datapoints". -/
example : ∃ (x : Ext) (out : Out ℕ), (computeCmv x exTs exPos (.one 0) "gagne" "xcorr" none).1 = .ok out ∧ out.speed = some (magnitude (1, 1)) ∧
    (∃ r ∈ out.rows, r.2 = .good) ∧ out.flag = .allbad := by
  obtain ⟨l, hl⟩ := exists_lsq
  obtain ⟨out, h, hw, hs⟩ := ex_wave_gagne l (fun _ => 0)
  have e : "gagne".toLower = "gagne" := by decide +kernel
  refine ⟨_, out, h, (C33_gagne_exact (exExt l fun _ => 0) hl exTs exPos (.one 0) "gagne" "xcorr" e none out h (1, 1) (by simp [Prod.ext_iff]) hw hs).1, ?_, ?_⟩
  · obtain ⟨r, hr, -, -, hg, -⟩ := hs
    exact ⟨r, hr, hg⟩
  · refine C241_violated_allbad _ _ _ _ _ _ _ out h e ?_
    obtain ⟨stats, o, hp, -, rfl, -⟩ := computeCmv_ok h
    rw [ex_prepare l (fun _ => 0) _ (Or.inr e)] at hp
    rw [e]
    obtain ⟨t, -, hrows, -⟩ := C32_gagne_threshold (exExt l fun _ => 0) o stats
    rw [hrows, ← Except.ok.inj hp]
    simp

/-! ## The hypotheses hold in concrete cases: two sites 100 m apart -/

theorem two_rows (a b : List (Option ℝ)) (d : Option ℝ × Option ℝ × Option ℝ) (method : String) (hm : method.toLower = "jamaly" ∨ method.toLower = "gagne") :
    ∃ out : Out ℕ, (computeCmv ⟨fun _ _ _ => d, fun _ => 0, fun _ => (0, 0)⟩ [(0, a), (1, b)] [(0, (0, 0)), (1, (100, 0))] (.one 0) method "xcorr" none).1 = .ok out ∧
      ∃ f, ((⟨0, 1, (100, 0), a, b, d.1, d.2.1, d.2.2⟩, f) : PairStat ℕ × Flag) ∈ out.rows := by
  have hprep : prepare ⟨fun _ _ _ => d, fun _ => 0, fun _ => (0, 0)⟩ [(0, a), (1, b)] [(0, ((0 : ℝ), (0 : ℝ))), (1, (100, 0))] (.one 0) method "xcorr" =
      .ok [⟨0, 0, (0, 0), a, a, d.1, d.2.1, d.2.2⟩, ⟨0, 1, (100, 0), a, b, d.1, d.2.1, d.2.2⟩] := by
    have hb : "xcorr".toLower = "xcorr" := by decide +kernel
    unfold prepare
    rw [hb, if_neg (by rcases hm with hm | hm <;> simp [hm]), if_neg (by simp)]
    have hp : getPairs ([((0 : ℕ), ((0 : ℝ), (0 : ℝ))), (1, (100, 0))].map Prod.fst) (some (RefArg.ids (.one 0) ([((0 : ℕ), ((0 : ℝ), (0 : ℝ))), (1, (100, 0))].map Prod.fst))) true =
        [(0, 0), (0, 1)] := by
      simp [getPairs, combosRepl, RefArg.ids]
    simp only [hp]
    rw [if_neg (by simp)]
    simp [List.mapM_cons, List.mapM_nil, statOf, dictGet?, bind, Except.bind, pure, Except.pure]
  obtain ⟨o, ho, -⟩ := (C28_validation method.toLower hm none).1 (by simp)
  refine ⟨finish _ method.toLower o _, by unfold computeCmv; rw [hprep]; simp only [ho]; rfl, ?_⟩
  rcases hm with hm | hm
  · rw [finish_rows, if_neg (by rw [hm]; decide)]
    exact ⟨_, List.mem_map.2 ⟨_, by simp, rfl⟩⟩
  · rw [hm]
    obtain ⟨t, -, hrows, -⟩ := C32_gagne_threshold ⟨fun _ _ _ => d, fun _ => 0, fun _ => (0, 0)⟩ o
      [⟨0, 0, (0, 0), a, a, d.1, d.2.1, d.2.2⟩, (⟨0, 1, (100, 0), a, b, d.1, d.2.1, d.2.2⟩ : PairStat ℕ)]
    rw [hrows]
    exact ⟨_, List.mem_map.2 ⟨_, by simp, rfl⟩⟩

theorem gagne_lower : "gagne".toLower = "gagne" := by decide +kernel

theorem default_of (k : String) (v : ℝ) : optionOf none k v = v := by simp [optionOf, dictGet?]

theorem max_of_two (u v : ℝ) (h : u ≤ v) : IsMaxOf v [some u, some v] := ⟨by simp, fun w hw => by
  simp only [List.mem_cons, Option.some.injEq, List.not_mem_nil, or_false] at hw
  rcases hw with rfl | rfl
  · exact h
  · exact le_rfl⟩

theorem not_maxBelow (u v c : ℝ) (h : u ≤ v) (hc : c ≤ v) : ¬ MaxBelow [some u, some v] c := by
  rintro ⟨m, ⟨-, h2⟩, h3⟩
  have := h2 v (by simp)
  linarith

theorem std_two (u v : ℝ) (c : ℝ) : StdBelow [some u, some v] c ↔ |v - u| / 2 < c := by
  have hfm : List.filterMap id [some u, some v] = [u, v] := rfl
  have havg : avgOf [some u, some v] = (u + v) / 2 := by rw [avgOf, hfm]; simp
  unfold StdBelow
  rw [havg, hfm]
  simp only [List.map_cons, List.map_nil, List.sum_cons, List.sum_nil, List.length_cons, List.length_nil]
  rw [show ((u - (u + v) / 2) ^ 2 + ((v - (u + v) / 2) ^ 2 + 0)) / (((0 + 1 + 1 : ℕ)) : ℝ) = ((v - u) / 2) ^ 2 by push_cast; ring, Real.sqrt_sq_eq_abs, abs_div, abs_two]
  exact and_iff_right ⟨u, by simp⟩

/-- A clear site and an overcast one. -/
example : ∃ (out : Out ℕ) (r : PairStat ℕ × Flag), r ∈ out.rows ∧ r.2 = .overcast ∧ (∃ x, some x ∈ r.1.sigB ∧ x = 1) := by
  obtain ⟨out, h, f, hf⟩ := two_rows [some 0, some 0.3] [some 0, some 1] (some 10, some 1, some 0) "gagne" (Or.inr gagne_lower)
  refine ⟨out, _, hf, (C241_violated_overcast _ _ _ _ _ _ _ out h gagne_lower _ hf ⟨0.3, max_of_two _ _ (by norm_num), by rw [default_of]; norm_num⟩ ?_ ⟨1, rfl, by norm_num⟩).1, 1, by simp, rfl⟩
  rw [default_of]
  exact not_maxBelow _ _ _ (by norm_num) (by norm_num)

/-- A correlation of 0.85. -/
example : ∃ (out : Out ℕ) (r : PairStat ℕ × Flag), r ∈ out.rows ∧ r.2 = .lowcorr ∧ r.1.peak = some 0.85 := by
  obtain ⟨out, h, f, hf⟩ := two_rows [some 0, some 1] [some 0, some 1] (some 10, some 0.85, some 0) "gagne" (Or.inr gagne_lower)
  exact ⟨out, _, hf, (C241_violated_lowcorr _ _ _ _ _ _ _ out h gagne_lower _ hf 0.85 rfl (by norm_num) (by norm_num)).1, rfl⟩

/-- A velocity of 100 m/s. -/
example : ∃ (out : Out ℕ) (r : PairStat ℕ × Flag), r ∈ out.rows ∧ r.2 = .vellimit ∧ r.1.delay = some 1 := by
  have e : "jamaly".toLower = "jamaly" := by decide +kernel
  have hmag : magnitude (100, 0) = 100 := by
    simp only [magnitude]
    rw [show ((100 : ℝ) ^ 2 + 0 ^ 2) = 100 ^ 2 by norm_num]
    exact Real.sqrt_sq (by norm_num)
  obtain ⟨out, h, f, hf⟩ := two_rows [some 0, some 1] [some 0, some 1] (some 1, some 1, some 0) "jamaly" (Or.inl e)
  exact ⟨out, _, hf, (C241_violated_vellimit _ _ _ _ _ _ _ out h e _ hf 1 rfl one_ne_zero (by rw [default_of]; norm_num [hmag]) (by rw [default_of]; simp [hmag])).1, rfl⟩

/-- A signal that varies by 0.001. -/
example : ∃ (out : Out ℕ) (r : PairStat ℕ × Flag), r ∈ out.rows ∧ r.2 = .nosignal ∧ r.1.sigA = [some 0.5, some 0.501] := by
  obtain ⟨out, h, f, hf⟩ := two_rows [some 0.5, some 0.501] [some 0, some 1] (some 10, some 1, some 0) "gagne" (Or.inr gagne_lower)
  refine ⟨out, _, hf, (C241_violated_nosignal _ _ _ _ _ _ _ out h gagne_lower _ hf ?_ ?_ ?_ (by simp) ⟨1, rfl, by norm_num⟩ (by simp) ?_ ?_).1, rfl⟩
  · refine (std_two _ _ _).2 ?_
    rw [abs_of_pos] <;> norm_num
  · intro hv
    have := hv 0.5 0.501 (by simp) (by simp)
    norm_num at this
  · intro hv
    have := hv 0 1 (by simp) (by simp)
    norm_num at this
  · rw [default_of]; exact not_maxBelow _ _ _ (by norm_num) (by norm_num)
  · rw [default_of]; exact not_maxBelow _ _ _ (by norm_num) (by norm_num)

/-- A pair without a lag. -/
example : ∃ (out : Out ℕ) (r : PairStat ℕ × Flag), r ∈ out.rows ∧ r.2 = .good ∧ r.1.delay = none := by
  obtain ⟨out, h, f, hf⟩ := two_rows [some 0, some 1] [some 0, some 1] (none, some 1, some 0) "gagne" (Or.inr gagne_lower)
  refine ⟨out, _, hf, C241_violated_nolag _ _ _ _ _ _ _ out h gagne_lower _ hf (by simp) ?_ ?_ rfl ⟨1, rfl, by norm_num⟩ (by simp) ?_ ?_, rfl⟩
  · rw [std_two]; norm_num
  · rw [std_two]; norm_num
  · rw [default_of]; exact not_maxBelow _ _ _ (by norm_num) (by norm_num)
  · rw [default_of]; exact not_maxBelow _ _ _ (by norm_num) (by norm_num)

end SST.Props.CmvText
