import Verif.Proofs.CmvSubset

/-!
# Properties C25-C36: cloud motion vectors (`cmv.py`)

Specifications: `Spec/Cmv.lean`.
-/

namespace SST.Props.Cmv
open SST SST.Cmv SST.Spec SST.Spatial

variable {ι : Type} [DecidableEq ι]

/-! ## C25 -/

/-- C25: `_get_pairs` is the list of pairs (l[i], l[j]) where (i, j) runs in lexicographic order
through exactly the index pairs with i ≤ j (i < j without replacement) that contain a required
point, if points are required. -/
theorem C25_pairs (l : List ι) (must : Option (List ι)) (repl : Bool) :
    ∃ ix : List (ℕ × ℕ), ix.Pairwise LexLt ∧
      (∀ i j, (i, j) ∈ ix ↔ ∃ (hi : i < l.length) (hj : j < l.length), (if repl then i ≤ j else i < j) ∧
        (must = none ∨ ∃ m, must = some m ∧ (l[i] ∈ m ∨ l[j] ∈ m))) ∧
      (getPairs l must repl).map (fun p => (some p.1, some p.2)) = ix.map fun p => (l[p.1]?, l[p.2]?) := by
  have hrange : (List.range l.length).Pairwise (· < ·) := List.pairwise_lt_range
  set base : List (ℕ × ℕ) := if repl then combosRepl (List.range l.length) else combos (List.range l.length) with hb
  have hlex : base.Pairwise LexLt := by
    rw [hb]; split_ifs
    · exact combosRepl_lex hrange
    · exact combos_lex hrange
  have hmem : ∀ i j, (i, j) ∈ base ↔ i < l.length ∧ j < l.length ∧ (if repl then i ≤ j else i < j) := by
    intro i j
    rw [hb]; split_ifs
    · rw [mem_combosRepl_sorted hrange]; simp
    · rw [mem_combos_sorted hrange]; simp
  set all : List (ι × ι) := if repl then combosRepl l else combos l with hall
  have hmap : all.map (fun p => (some p.1, some p.2)) = base.map fun p => (l[p.1]?, l[p.2]?) := by
    rw [hall, hb]
    split_ifs
    · rw [← combosRepl_map some l, map_some_range, combosRepl_map]
    · rw [← combos_map some l, map_some_range, combos_map]
  cases must with
  | none =>
    refine ⟨base, hlex, ?_, ?_⟩
    · intro i j; rw [hmem]; simp; tauto
    · simpa [getPairs, ← hall] using hmap
  | some m =>
    let P : Option ι × Option ι → Bool := fun p => decide ((∃ a ∈ m, p.1 = some a) ∨ ∃ a ∈ m, p.2 = some a)
    refine ⟨base.filter fun p => P (l[p.1]?, l[p.2]?), hlex.filter _, ?_, ?_⟩
    · intro i j
      rw [List.mem_filter, hmem]
      constructor
      · rintro ⟨⟨hi, hj, h1⟩, h2⟩
        refine ⟨hi, hj, h1, Or.inr ⟨m, rfl, ?_⟩⟩
        simpa [P, hi, hj] using h2
      · rintro ⟨hi, hj, h1, h2⟩
        refine ⟨⟨hi, hj, h1⟩, ?_⟩
        rcases h2 with h2 | ⟨m', hm', h2⟩
        · cases h2
        · cases hm'
          simpa [P, hi, hj] using h2
    · have e1 : (base.filter fun p => P (l[p.1]?, l[p.2]?)).map (fun p => (l[p.1]?, l[p.2]?)) =
          (base.map fun p => (l[p.1]?, l[p.2]?)).filter P := by
        rw [List.filter_map]; rfl
      rw [e1, ← hmap, List.filter_map]
      simp only [getPairs, ← hall]
      congr 1
      apply List.filter_congr
      intro p _
      simp [P]

/-- C25: the number of pairs when no point is required: n(n+1)/2, or n(n-1)/2 without replacement. -/
theorem C25_count (l : List ι) :
    2 * (getPairs l none true).length = l.length * (l.length + 1) ∧
    2 * (getPairs l none false).length = l.length * (l.length - 1) :=
  ⟨length_combosRepl l, length_combos l⟩

/-- C25: for distinct ids no pair is listed twice and no pair of different sites appears in both
orders. -/
theorem C25_distinct (l : List ι) (h : l.Nodup) (must : Option (List ι)) (repl : Bool) :
    (getPairs l must repl).Nodup ∧
      ∀ a b, (a, b) ∈ getPairs l must repl → (b, a) ∈ getPairs l must repl → a = b := by
  obtain ⟨ix, h1, h2, h3⟩ := C25_pairs l must repl
  have hidx : ∀ {i j : ℕ}, i < l.length → l[i]? = l[j]? → i = j := by
    intro i j hi hij
    exact (List.getElem?_inj hi h).1 hij
  have hlen := congrArg List.length h3
  simp only [List.length_map] at hlen
  have hget : ∀ n (hn : n < ix.length), ∃ p, (getPairs l must repl)[n]? = some p ∧
      l[(ix[n]).1]? = some p.1 ∧ l[(ix[n]).2]? = some p.2 := by
    intro n hn
    have hn' : n < (getPairs l must repl).length := by omega
    refine ⟨_, List.getElem?_eq_getElem hn', ?_⟩
    have := congrArg (fun t => t[n]?) h3
    simp only [List.getElem?_map, List.getElem?_eq_getElem hn', List.getElem?_eq_getElem hn, Option.map_some,
      Option.some.injEq, Prod.mk.injEq] at this
    exact ⟨this.1.symm, this.2.symm⟩
  have key : ∀ a b, (a, b) ∈ getPairs l must repl → ∃ i j, (i, j) ∈ ix ∧ l[i]? = some a ∧ l[j]? = some b := by
    intro a b hab
    obtain ⟨n, hn⟩ := List.mem_iff_getElem?.1 hab
    have hn' : n < ix.length := by
      have := (List.getElem?_eq_some_iff.1 hn).1; omega
    obtain ⟨p, hp, hp1, hp2⟩ := hget n hn'
    rw [hn] at hp
    cases hp
    exact ⟨_, _, List.getElem_mem hn', hp1, hp2⟩
  constructor
  · have hnd : ((getPairs l must repl).map fun p => (some p.1, some p.2)).Nodup := by
      rw [h3]
      refine List.Nodup.map_on ?_ (h1.imp ?_)
      · rintro ⟨i, j⟩ hij ⟨i', j'⟩ hij' heq
        simp only [Prod.mk.injEq] at heq
        obtain ⟨hi, hj, _⟩ := (h2 i j).1 hij
        exact Prod.ext (hidx hi heq.1) (hidx hj heq.2)
      · rintro ⟨i, j⟩ ⟨i', j'⟩ hlt heq
        cases heq
        rcases hlt with hlt | hlt
        · exact lt_irrefl _ hlt
        · exact lt_irrefl _ hlt.2
    exact hnd.of_map _
  · intro a b hab hba
    obtain ⟨i, j, hij, hi, hj⟩ := key a b hab
    obtain ⟨i', j', hij', hi', hj'⟩ := key b a hba
    obtain ⟨li, lj, o, _⟩ := (h2 i j).1 hij
    obtain ⟨li', lj', o', _⟩ := (h2 i' j').1 hij'
    have e1 : i = j' := hidx li (hi.trans hj'.symm)
    have e2 : j = i' := hidx lj (hj.trans hi'.symm)
    have : i = j := by
      cases repl
      · simp at o o'; omega
      · simp at o o'; omega
    subst this
    rw [hi] at hj
    exact Option.some.inj hj

example : [1, 2, 3].Nodup := by decide

/-! ## C26, C27 -/

/-- C27: the flag of a pair is that of the last failing check, in the order SAME, NOSIGNAL, NOLAG,
LOWCORR (NaN), OVERCAST, and for jamaly LOWVAR_S, LOWCORR, VELLIMIT; GOOD if no check fails. -/
theorem C27_last_failing (method : String) (o : Dict) (p : PairStat ι) :
    IsLastFailing (checks method o p) (pairFlag method o p) := pairFlag_last method o p

private theorem checks_not_good (method : String) (o : Dict) (p : PairStat ι) :
    ∀ c ∈ checks method o p, c.1 ≠ Flag.good := by
  intro c hc
  unfold checks at hc
  split_ifs at hc <;> simp at hc <;> rcases hc with h | h | h | h | h <;>
    first
      | (rw [h]; simp)
      | (rcases h with h | h | h | h <;> rw [h] <;> simp)

/-- C26: a pair is GOOD exactly when it fails no check: different sites, both signals vary, nonzero
delay, defined correlations, neither signal overcast and, for jamaly, variation ratio, correlation
and velocity within the limits. -/
theorem C26_good_iff (method : String) (o : Dict) (p : PairStat ι) :
    pairFlag method o p = .good ↔
      p.a ≠ p.b ∧ ¬ StdBelow p.sigA 0.001 ∧ ¬ StdBelow p.sigB 0.001 ∧ p.delay ≠ some 0 ∧
      p.peak ≠ none ∧ p.meanCorr ≠ none ∧ ¬ MaxBelow p.sigA (opt o "ktlim") ∧ ¬ MaxBelow p.sigB (opt o "ktlim") ∧
      (method = "jamaly" →
        ¬ LowVariation p.sigA (opt o "var_s_lim") ∧ ¬ LowVariation p.sigB (opt o "var_s_lim") ∧
        ¬ LowCorrelation p.peak p.meanCorr (opt o "mincorr") ∧
        VelocityInside (magnitude p.vec) p.delay (opt o "minvelocity") (opt o "maxvelocity")) := by
  have hlast := pairFlag_last method o p
  have hiff : pairFlag method o p = .good ↔ ∀ c ∈ checks method o p, ¬ c.2 := by
    constructor
    · intro hg
      rcases hlast with ⟨_, h⟩ | ⟨l1, c, l2, h1, _, h3, _⟩
      · exact h
      · exact absurd (h3.trans hg) (checks_not_good method o p c (by rw [h1]; simp))
    · intro h
      rcases hlast with ⟨h, _⟩ | ⟨l1, c, l2, h1, h2, _, _⟩
      · exact h
      · exact absurd h2 (h c (by rw [h1]; simp))
  rw [hiff]
  unfold checks
  by_cases hm : method = "jamaly"
  · simp only [hm, if_true, List.cons_append, List.nil_append, List.mem_cons, List.not_mem_nil, or_false,
      forall_eq_or_imp, forall_eq, not_or, not_not, true_implies]
    tauto
  · simp only [hm, if_false, List.append_nil, List.mem_cons, List.not_mem_nil, or_false,
      forall_eq_or_imp, forall_eq, not_or, false_implies]
    tauto

theorem computeCmv_ok {x : Ext} {ts : List (ι × List (Option ℝ))} {pos : List (ι × Vec)} {ref : RefArg ι}
    {method backend : String} {options : Option Dict} {out : Out ι}
    (h : (computeCmv x ts pos ref method backend options).1 = .ok out) :
    ∃ stats o, prepare x ts pos ref method backend = .ok stats ∧
      (validateOptions method.toLower options).1 = .ok o ∧ out = finish x method.toLower o stats ∧
      (method.toLower = "jamaly" ∨ method.toLower = "gagne") := by
  unfold computeCmv at h
  cases hp : prepare x ts pos ref method backend with
  | error e => rw [hp] at h; cases h
  | ok stats =>
    rw [hp] at h
    simp only at h
    cases hv : (validateOptions method.toLower options).1 with
    | error e => rw [hv] at h; cases h
    | ok o =>
      rw [hv] at h
      simp only [Except.map, Except.ok.injEq] at h
      refine ⟨stats, o, rfl, rfl, h.symm, ?_⟩
      unfold prepare at hp
      split_ifs at hp with h1
      simpa using h1

theorem mapM_mem {α β : Type} {f : α → Except PyErr β} : ∀ {l : List α} {r : List β},
    l.mapM f = .ok r → ∀ y ∈ r, ∃ a ∈ l, f a = .ok y := by
  intro l
  induction l with
  | nil => intro r h y hy; simp [pure, Except.pure] at h; subst h; simp at hy
  | cons a l ih =>
    intro r h y hy
    rw [List.mapM_cons] at h
    cases ha : f a with
    | error e => rw [ha] at h; cases h
    | ok b =>
      rw [ha] at h
      cases hl : l.mapM f with
      | error e => rw [hl] at h; cases h
      | ok bs =>
        rw [hl] at h
        cases h
        rcases List.mem_cons.1 hy with rfl | hy
        · exact ⟨a, by simp, ha⟩
        · obtain ⟨a', h1, h2⟩ := ih hl y hy
          exact ⟨a', by simp [h1], h2⟩

theorem finish_rows (x : Ext) (method : String) (o : Dict) (stats : List (PairStat ι)) :
    (finish x method o stats).rows =
      (if method = "gagne" then gagneSelect (stats.map fun p => (p, pairFlag method o p))
        else (Flag.good, stats.map fun p => (p, pairFlag method o p))).2 := by
  unfold finish
  simp only
  split_ifs <;> rfl

/-- C27: with jamaly and a nonnegative `minvelocity` (default 0), a pair of a site with itself is
reported as VELLIMIT, never as SAME. -/
theorem C27_same_site (x : Ext) (ts : List (ι × List (Option ℝ))) (pos : List (ι × Vec)) (ref : RefArg ι)
    (method backend : String) (options : Option Dict) (out : Out ι) (hm : method.toLower = "jamaly")
    (h : (computeCmv x ts pos ref method backend options).1 = .ok out)
    (hmin : ∀ d, options = some d → ∀ v, dictGet? d "minvelocity" = some v → 0 ≤ v)
    (r : PairStat ι × Flag) (hr : r ∈ out.rows) (hab : r.1.a = r.1.b) : r.2 = .vellimit := by
  obtain ⟨stats, o, hp, hv, rfl, -⟩ := computeCmv_ok h
  rw [finish_rows, hm, if_neg (by decide)] at hr
  obtain ⟨p, hpm, rfl⟩ := List.mem_map.1 hr
  have hmem : ∃ q, statOf x ts pos backend.toLower q = .ok p := by
    unfold prepare at hp
    split_ifs at hp
    simp only at hp
    split_ifs at hp
    obtain ⟨q, _, hq⟩ := mapM_mem hp p hpm
    exact ⟨q, hq⟩
  obtain ⟨q, hq⟩ := hmem
  have hvec : p.vec = 0 := by
    unfold statOf at hq
    split at hq
    · rename_i sa sb pa pb h1 h2 h3 h4
      simp only [Except.ok.injEq] at hq
      subst hq
      simp only at hab
      rw [hab, h4] at h3
      cases h3
      simp
    · cases hq
  have hmv : 0 ≤ opt o "minvelocity" := by
    rw [hm] at hv
    unfold validateOptions at hv
    simp only [defaults, if_true] at hv
    split_ifs at hv
    simp only [Except.ok.injEq] at hv
    unfold opt
    rw [← hv, fill_get]
    cases hd : dictGet? (options.getD []) "minvelocity" with
    | none => simp [dictGet?]
    | some v =>
      simp only [Option.some_or, Option.getD_some]
      cases ho : options with
      | none => rw [ho] at hd; simp [dictGet?] at hd
      | some d => rw [ho] at hd; exact hmin d ho v hd
  have hlast := pairFlag_last "jamaly" o p
  have hnot : ¬ VelocityInside (magnitude p.vec) p.delay (opt o "minvelocity") (opt o "maxvelocity") := by
    rintro ⟨t, _, _, h1, _⟩
    rw [hvec] at h1
    have h0 : magnitude (0 : Vec) = 0 := magnitude_eq_zero.2 rfl
    rw [h0, zero_div] at h1
    linarith
  rcases hlast with ⟨_, hl⟩ | ⟨l1, c, l2, he, hc, hcf, hl⟩
  · exact absurd hnot (hl (.vellimit, _) (by simp [checks]))
  · simp only [checks, if_true] at he
    rcases l2.eq_nil_or_concat with rfl | ⟨l3, d, rfl⟩
    · have := congrArg List.getLast? he
      simp at this
      rw [← this] at hcf
      simpa using hcf.symm
    · exfalso
      have := congrArg List.getLast? he
      rw [List.concat_eq_append] at this
      simp [List.getLast?_append, List.getLast?_cons] at this
      apply hl d (by simp)
      rw [← this]
      exact hnot

/-! ## C28, C29 -/

private theorem defaults_jamaly : defaults "jamaly" = some
    [("minvelocity", 0), ("maxvelocity", 70), ("var_s_lim", 0.05), ("ktlim", 0.4), ("mincorr", 0.8)] := by
  simp [defaults]

private theorem defaults_gagne : defaults "gagne" = some [("ktlim", 0.4)] := by
  rw [defaults, if_neg (by decide), if_pos rfl]

private theorem validate_of {m : String} {dfl : Dict} (h : defaults m = some dfl) (options : Option Dict) :
    validateOptions m options =
      if (options.getD []).all fun kv => decide (kv.1 ∈ dfl.map Prod.fst) then
        (.ok (dfl.foldl fillStep (options.getD [])), options.map fun _ => dfl.foldl fillStep (options.getD []))
      else (.error .valueError, options) := by
  unfold validateOptions
  rw [h]

private theorem documented_get (m : String) (dfl : Dict) (h : defaults m = some dfl) :
    (∀ k, k ∈ (documented m).map Prod.fst ↔ k ∈ dfl.map Prod.fst) ∧
      ∀ k v, (k, v) ∈ documented m → dictGet? dfl k = some v := by
  unfold defaults at h
  split_ifs at h with h1 h2
  · subst h1; cases h
    constructor
    · intro k; simp [documented]; tauto
    · intro k v hk
      simp [documented] at hk
      rcases hk with ⟨rfl, rfl⟩ | ⟨rfl, rfl⟩ | ⟨rfl, rfl⟩ | ⟨rfl, rfl⟩ | ⟨rfl, rfl⟩ <;> simp [dictGet?]
  · subst h2; cases h
    constructor
    · intro k; simp [documented]
    · intro k v hk
      simp [documented] at hk
      obtain ⟨rfl, rfl⟩ := hk
      simp [dictGet?]

/-- C28: for an accepted method the options are accepted exactly when every key is a documented
option of that method; then every documented option has the user's value if given and the
documented default otherwise, and there are no other keys.  Otherwise `ValueError`. -/
theorem C28_validation (m : String) (hm : m = "jamaly" ∨ m = "gagne") (options : Option Dict) :
    ((∀ kv ∈ options.getD [], kv.1 ∈ (documented m).map Prod.fst) →
      ∃ o, (validateOptions m options).1 = .ok o ∧
        (∀ k, k ∈ o.map Prod.fst ↔ k ∈ (documented m).map Prod.fst) ∧
        ∀ k v, (k, v) ∈ documented m → dictGet? o k = some ((dictGet? (options.getD []) k).getD v)) ∧
    ((∃ kv ∈ options.getD [], kv.1 ∉ (documented m).map Prod.fst) →
      Raises (validateOptions m options).1 .valueError) := by
  obtain ⟨dfl, hd⟩ : ∃ dfl, defaults m = some dfl := by
    rcases hm with rfl | rfl
    · exact ⟨_, defaults_jamaly⟩
    · exact ⟨_, defaults_gagne⟩
  obtain ⟨hk, hg⟩ := documented_get m dfl hd
  rw [validate_of hd]
  constructor
  · intro h
    have hall : ((options.getD []).all fun kv => decide (kv.1 ∈ dfl.map Prod.fst)) = true := by
      rw [List.all_eq_true]
      intro kv hkv
      simpa using (hk kv.1).1 (h kv hkv)
    rw [if_pos hall]
    refine ⟨_, rfl, ?_, ?_⟩
    · intro k
      rw [fill_keys, hk]
      constructor
      · rintro (h1 | h1)
        · obtain ⟨kv, h2, rfl⟩ := List.mem_map.1 h1
          exact (hk _).1 (h kv h2)
        · exact h1
      · exact Or.inr
    · intro k v hkv
      rw [fill_get, hg k v hkv]
      cases dictGet? (options.getD []) k <;> rfl
  · rintro ⟨kv, hkv, hnot⟩
    rw [if_neg]
    · rfl
    · intro hall
      rw [List.all_eq_true] at hall
      exact hnot ((hk _).2 (by simpa using hall kv hkv))

/-- C28: any other method is rejected. -/
theorem C28_unknown_method (m : String) (hm : m ≠ "jamaly" ∧ m ≠ "gagne") (options : Option Dict) :
    Raises (validateOptions m options).1 .valueError := by
  unfold validateOptions defaults
  rw [if_neg hm.1, if_neg hm.2]
  rfl

example : (∀ kv ∈ (some [("ktlim", (0.3 : ℝ))]).getD [], kv.1 ∈ (documented "gagne").map Prod.fst) := by
  simp [documented]

/-- C27 for whole calls: with the user's option values and the documented defaults, every pair reported by `compute_cmv` has the flag of its
last failing check; the gagne method may replace it by LOWCORR (see C32). -/
theorem C27_rows (x : Ext) (ts : List (ι × List (Option ℝ))) (pos : List (ι × Vec)) (ref : RefArg ι)
    (method backend : String) (options : Option Dict) (out : Out ι)
    (h : (computeCmv x ts pos ref method backend options).1 = .ok out) :
    ∃ o, (∀ k v, (k, v) ∈ documented method.toLower → opt o k = (dictGet? (options.getD []) k).getD v) ∧
      ∀ r ∈ out.rows, (method.toLower = "jamaly" → IsLastFailing (checks "jamaly" o r.1) r.2) ∧
        (method.toLower = "gagne" → r.2 = .lowcorr ∨ IsLastFailing (checks "gagne" o r.1) r.2) := by
  obtain ⟨stats, o, -, hv, rfl, hm⟩ := computeCmv_ok h
  refine ⟨o, ?_, ?_⟩
  · intro k v hk
    obtain ⟨h1, h2⟩ := C28_validation _ hm options
    by_cases hall : ∀ kv ∈ options.getD [], kv.1 ∈ (documented method.toLower).map Prod.fst
    · obtain ⟨o', ho', -, h3⟩ := h1 hall
      rw [hv] at ho'
      cases ho'
      unfold opt
      rw [h3 k v hk]
      rfl
    · push Not at hall
      have := h2 hall
      rw [hv] at this
      cases this
  · intro r hr
    rw [finish_rows] at hr
    constructor
    · intro hj
      rw [hj, if_neg (by decide)] at hr
      obtain ⟨p, -, rfl⟩ := List.mem_map.1 hr
      exact pairFlag_last _ _ _
    · intro hg
      rw [hg, if_pos rfl] at hr
      unfold gagneSelect at hr
      simp only [List.map_map, List.mem_map, Function.comp] at hr
      obtain ⟨p, -, rfl⟩ := hr
      simp only
      split_ifs
      all_goals first
        | exact Or.inl rfl
        | exact Or.inr (pairFlag_last _ _ _)

/-- C29 violated: validating options for jamaly writes the defaults into the caller's dictionary, so
a following gagne call with the same dictionary raises `ValueError`, although it would have been
accepted with a fresh copy. True for every dictionary that is valid for gagne. -/
theorem C29_violated_shared_options (d : Dict) (hd : ∀ kv ∈ d, kv.1 = "ktlim") :
    (∃ o, (validateOptions "gagne" (some d)).1 = .ok o) ∧
    (∃ o, (validateOptions "jamaly" (some d)).1 = .ok o) ∧
    Raises (validateOptions "gagne" (validateOptions "jamaly" (some d)).2).1 .valueError := by
  have hg : (d.all fun kv => decide (kv.1 ∈ [("ktlim", (0.4 : ℝ))].map Prod.fst)) = true := by
    rw [List.all_eq_true]; intro kv hkv; simp [hd kv hkv]
  have hj : (d.all fun kv => decide (kv.1 ∈ [("minvelocity", (0 : ℝ)), ("maxvelocity", 70), ("var_s_lim", 0.05),
      ("ktlim", 0.4), ("mincorr", 0.8)].map Prod.fst)) = true := by
    rw [List.all_eq_true]; intro kv hkv; simp [hd kv hkv]
  refine ⟨⟨_, by rw [validate_of defaults_gagne]; simp only [Option.getD_some]; rw [if_pos hg]⟩,
    ⟨_, by rw [validate_of defaults_jamaly]; simp only [Option.getD_some]; rw [if_pos hj]⟩, ?_⟩
  rw [validate_of defaults_jamaly]
  simp only [Option.getD_some]
  rw [if_pos hj]
  refine (C28_validation "gagne" (Or.inr rfl) _).2 ?_
  simp only [Option.map_some, Option.getD_some]
  have : "minvelocity" ∈ (List.foldl fillStep d [("minvelocity", (0 : ℝ)), ("maxvelocity", 70), ("var_s_lim", 0.05),
      ("ktlim", 0.4), ("mincorr", 0.8)]).map Prod.fst := by
    rw [fill_keys]; right; simp
  obtain ⟨kv, h1, h2⟩ := List.mem_map.1 this
  exact ⟨kv, h1, by rw [h2]; simp [documented]⟩

example : ∀ kv ∈ ([] : Dict), kv.1 = "ktlim" := by simp

/-- One call of `compute_cmv` apart from the options. -/
structure Call (ι : Type) where
  x : Ext
  ts : List (ι × List (Option ℝ))
  pos : List (ι × Vec)
  ref : RefArg ι
  method : String
  backend : String

/-- The call with given options. -/
noncomputable def Call.run (c : Call ι) (o : Option Dict) : Except PyErr (Out ι) × Option Dict :=
  computeCmv c.x c.ts c.pos c.ref c.method c.backend o

/-- Results of a sequence of calls sharing one options object. -/
noncomputable def runShared : List (Call ι) → Option Dict → List (Except PyErr (Out ι))
  | [], _ => []
  | c :: cs, o => (c.run o).1 :: runShared cs (c.run o).2

private noncomputable def jam : Dict :=
  [("minvelocity", 0), ("maxvelocity", 70), ("var_s_lim", 0.05), ("ktlim", 0.4), ("mincorr", 0.8)]

/-- `d'` is `d` plus some default entries with keys in `K`. -/
private def Ext' (K : List String) (d d' : Dict) : Prop :=
  ∀ k, dictGet? d' k = dictGet? d k ∨ (k ∈ K ∧ dictGet? d k = none ∧ dictGet? d' k = dictGet? jam k)

private theorem keys_iff {d : Dict} {dfl : Dict} :
    ((d.all fun kv => decide (kv.1 ∈ dfl.map Prod.fst)) = true) ↔
      ∀ k, dictGet? d k ≠ none → k ∈ dfl.map Prod.fst := by
  rw [List.all_eq_true]
  constructor
  · intro h k hk
    have : k ∈ d.map Prod.fst := by
      by_contra hn
      exact hk ((dictGet?_none d k).2 hn)
    obtain ⟨kv, h1, rfl⟩ := List.mem_map.1 this
    simpa using h kv h1
  · intro h kv hkv
    simp only [decide_eq_true_eq]
    apply h
    intro hn
    rw [dictGet?_none] at hn
    exact hn (List.mem_map_of_mem hkv)

private theorem finish_congr (x : Ext) (m : String) (o o' : Dict) (h : ∀ k, dictGet? o k = dictGet? o' k)
    (stats : List (PairStat ι)) : finish x m o stats = finish x m o' stats := by
  have hf : ∀ p : PairStat ι, pairFlag m o p = pairFlag m o' p := by
    intro p
    have e : optVal o = optVal o' := funext fun k => by rw [optVal, optVal, h]
    unfold pairFlag
    rw [e]
  unfold finish
  simp only [hf]

private theorem step_result (c : Call ι) (d d' : Dict) (dfl : Dict) (hdfl : defaults c.method.toLower = some dfl)
    (K : List String) (hE : Ext' K d d') (hK : ∀ k ∈ K, k ∈ dfl.map Prod.fst)
    (hval : ∀ k ∈ dfl.map Prod.fst, dictGet? dfl k = dictGet? jam k) :
    (c.run (some d')).1 = (c.run (some d)).1 ∧
      ((c.run (some d')).2 = some d' ∨ ∃ e, (c.run (some d')).2 = some e ∧ Ext' (dfl.map Prod.fst) d e) := by
  have hkeys : ((d'.all fun kv => decide (kv.1 ∈ dfl.map Prod.fst)) = true) ↔
      ((d.all fun kv => decide (kv.1 ∈ dfl.map Prod.fst)) = true) := by
    rw [keys_iff, keys_iff]
    constructor
    · intro h k hk
      apply h
      rcases hE k with h1 | ⟨_, h2, _⟩
      · rwa [h1]
      · exact absurd h2 hk
    · intro h k hk
      rcases hE k with h1 | ⟨h1, _, _⟩
      · rw [h1] at hk; exact h k hk
      · exact hK k h1
  have hdflget : ∀ k, dictGet? dfl k ≠ none → k ∈ dfl.map Prod.fst := by
    intro k hk
    by_contra hn
    exact hk ((dictGet?_none dfl k).2 hn)
  have hfill : ∀ k, dictGet? (dfl.foldl fillStep d') k = dictGet? (dfl.foldl fillStep d) k := by
    intro k
    rw [fill_get, fill_get]
    rcases hE k with h1 | ⟨h1, h2, h3⟩
    · rw [h1]
    · rw [h2, h3, hval k (hK k h1)]
      cases dictGet? jam k <;> rfl
  unfold Call.run computeCmv
  cases hp : prepare c.x c.ts c.pos c.ref c.method c.backend with
  | error e => exact ⟨rfl, Or.inl rfl⟩
  | ok stats =>
    simp only [validate_of hdfl, Option.getD_some, Option.map_some]
    by_cases hc : ((d.all fun kv => decide (kv.1 ∈ dfl.map Prod.fst)) = true)
    · rw [if_pos hc, if_pos (hkeys.2 hc)]
      refine ⟨?_, Or.inr ⟨_, rfl, ?_⟩⟩
      · simp only [Except.map]
        rw [finish_congr c.x _ _ _ hfill]
      · intro k
        rw [hfill, fill_get]
        cases hd : dictGet? d k with
        | some v => left; rfl
        | none =>
          rw [Option.none_or]
          cases hg : dictGet? dfl k with
          | none => left; rfl
          | some v =>
            right
            have hm : k ∈ dfl.map Prod.fst := hdflget k (by rw [hg]; simp)
            exact ⟨hm, rfl, by rw [← hval k hm, hg]⟩
    · rw [if_neg hc, if_neg (fun h => hc (hkeys.1 h))]
      exact ⟨rfl, Or.inl rfl⟩

private theorem shared_aux (cs : List (Call ι)) (d d' : Dict) (K : List String) (hE : Ext' K d d')
    (hK : K = ["ktlim"] ∨ (K = jam.map Prod.fst ∧ ∀ c ∈ cs, c.method.toLower ≠ "gagne"))
    (hord : cs.Pairwise fun a b => ¬ (a.method.toLower = "jamaly" ∧ b.method.toLower = "gagne")) :
    runShared cs (some d') = cs.map fun c => (c.run (some d)).1 := by
  induction cs generalizing d' K with
  | nil => rfl
  | cons c cs ih =>
    rw [List.pairwise_cons] at hord
    rw [runShared, List.map_cons]
    by_cases hj : c.method.toLower = "jamaly"
    · have hd : defaults c.method.toLower = some jam := by rw [hj]; exact defaults_jamaly
      obtain ⟨h1, h2⟩ := step_result c d d' jam hd K hE (by
        rcases hK with rfl | ⟨rfl, _⟩
        · simp [jam]
        · exact fun _ h => h) (fun _ _ => rfl)
      rw [h1]
      congr 1
      have hrest : ∀ c' ∈ cs, c'.method.toLower ≠ "gagne" := fun c' hc' hg => hord.1 c' hc' ⟨hj, hg⟩
      rcases h2 with h2 | ⟨e, h2, h3⟩
      · rw [h2]
        exact ih d' K hE (hK.imp id fun h => ⟨h.1, hrest⟩) hord.2
      · rw [h2]
        exact ih e _ h3 (Or.inr ⟨rfl, hrest⟩) hord.2
    · by_cases hg : c.method.toLower = "gagne"
      · have hd : defaults c.method.toLower = some [("ktlim", 0.4)] := by rw [hg]; exact defaults_gagne
        rcases hK with rfl | ⟨_, hK⟩
        · obtain ⟨h1, h2⟩ := step_result c d d' _ hd _ hE (by simp) (by simp [jam, dictGet?])
          rw [h1]
          congr 1
          rcases h2 with h2 | ⟨e, h2, h3⟩
          · rw [h2]; exact ih d' _ hE (Or.inl rfl) hord.2
          · rw [h2]; exact ih e _ h3 (Or.inl rfl) hord.2
        · exact absurd hg (hK c (by simp))
      · have hp : ∀ o, c.run o = (.error .valueError, o) := by
          intro o
          unfold Call.run computeCmv prepare
          rw [if_pos (by simp [hj, hg])]
        rw [hp, hp]
        congr 1
        exact ih d' K hE (hK.imp id fun h => ⟨h.1, fun c' hc' => h.2 c' (by simp [hc'])⟩) hord.2

/-- C29 (partial): a sequence of calls sharing one options dictionary gives the same results as
with fresh copies, provided no gagne call follows a jamaly call; and calls without options never
influence each other. Missing: gagne after jamaly, where the claim is false
(`C29_violated_shared_options`). -/
theorem C29_shared_options_partial (cs : List (Call ι)) (d : Dict)
    (hord : cs.Pairwise fun a b => ¬ (a.method.toLower = "jamaly" ∧ b.method.toLower = "gagne")) :
    runShared cs (some d) = cs.map (fun c => (c.run (some d)).1) ∧
    ∀ cs' : List (Call ι), runShared cs' none = cs'.map fun c => (c.run none).1 := by
  refine ⟨shared_aux cs d d ["ktlim"] (fun k => Or.inl rfl) (Or.inl rfl) hord, ?_⟩
  intro cs'
  induction cs' with
  | nil => rfl
  | cons c cs' ih =>
    rw [runShared, List.map_cons]
    have : (c.run none).2 = none := by
      unfold Call.run computeCmv
      cases prepare c.x c.ts c.pos c.ref c.method c.backend with
      | error e => rfl
      | ok stats =>
        simp only
        unfold validateOptions
        cases defaults c.method.toLower with
        | none => rfl
        | some dfl => simp only; split_ifs <;> rfl
    rw [this, ih]

example (c1 c2 : Call ι) (h1 : c1.method = "Gagne") (h2 : c2.method = "jamaly") :
    [c1, c2, c2].Pairwise fun a b => ¬ (a.method.toLower = "jamaly" ∧ b.method.toLower = "gagne") := by
  have e1 : ("Gagne".toLower = "gagne") := by decide +kernel
  have e2 : ("jamaly".toLower = "jamaly") := by decide +kernel
  simp [h1, h2, e1, e2]

/-! ## C30-C32 -/

private theorem normalise_range (v θ : Option ℝ) :
    (∀ w, (normalise v θ).1 = some w → 0 ≤ w) ∧
    (∀ t, (normalise v θ).2 = some t → 0 ≤ t ∧ t < 2 * Real.pi) := by
  have hp : (0 : ℝ) < 2 * Real.pi := by positivity
  unfold normalise
  cases v with
  | none =>
    refine ⟨by simp, ?_⟩
    intro t ht
    obtain ⟨x, _, rfl⟩ := Option.map_eq_some_iff.1 ht
    exact pyMod_range _ hp
  | some v =>
    simp only
    split_ifs with h
    · refine ⟨?_, ?_⟩
      · intro w hw
        have : v * -1 = w := by simpa using hw
        linarith
      · intro t ht
        obtain ⟨x, _, rfl⟩ := Option.map_eq_some_iff.1 ht
        exact pyMod_range _ hp
    · refine ⟨?_, ?_⟩
      · intro w hw
        have : v = w := by simpa using hw
        linarith
      · intro t ht
        obtain ⟨x, _, rfl⟩ := Option.map_eq_some_iff.1 ht
        exact pyMod_range _ hp

/-- C30: every numeric speed returned is nonnegative and every numeric direction lies in [0, 2π). -/
theorem C30_range (x : Ext) (ts : List (ι × List (Option ℝ))) (pos : List (ι × Vec)) (ref : RefArg ι)
    (method backend : String) (options : Option Dict) (out : Out ι)
    (h : (computeCmv x ts pos ref method backend options).1 = .ok out) :
    (∀ v, out.speed = some v → 0 ≤ v) ∧ ∀ t, out.angle = some t → 0 ≤ t ∧ t < 2 * Real.pi := by
  obtain ⟨stats, o, -, -, rfl, -⟩ := computeCmv_ok h
  unfold finish
  simp only
  split_ifs
  all_goals first
    | (refine ⟨fun v hv => ?_, fun t ht => ?_⟩
       · have : (0 : ℝ) = v := by simpa using hv
         exact this.le
       · have : (0 : ℝ) = t := by simpa using ht
         rw [← this]
         exact ⟨le_refl _, by positivity⟩)
    | exact normalise_range _ _

/-- C30: the normalisation preserves the velocity vector. -/
theorem C30_vector (v θ : ℝ) : ∃ s t, normalise (some v) (some θ) = (some s, some t) ∧
    s * Real.cos t = v * Real.cos θ ∧ s * Real.sin t = v * Real.sin θ := by
  obtain ⟨t, h1, -, -, h2⟩ := normalise_some v θ
  refine ⟨_, _, h1, ?_⟩
  unfold pol2rect at h2
  exact Prod.mk.inj h2

private theorem goodPairs_length (rows : List (PairStat ι × Flag)) :
    (goodPairs rows).length = rows.countP fun r => r.2 = .good := by
  rw [goodPairs, List.length_map, List.countP_eq_length_filter]

private theorem gagne_speed (x : Ext) (pairs : List (Option ℝ × Vec)) :
    (normalise (gagne x pairs).1 (gagne x pairs).2).1 ≠ some 0 := by
  unfold gagne
  simp only
  split_ifs with h
  · simp [normalise]
  · have hne : ((1 / ((x.leastsq pairs).1 ^ 2 + (x.leastsq pairs).2 ^ 2) * (x.leastsq pairs).1,
        1 / ((x.leastsq pairs).1 ^ 2 + (x.leastsq pairs).2 ^ 2) * (x.leastsq pairs).2) : Vec) ≠ 0 := by
      intro h0
      have h1 := congrArg Prod.fst h0
      have h2 := congrArg Prod.snd h0
      simp only [Prod.fst_zero, Prod.snd_zero, mul_eq_zero, one_div, inv_eq_zero] at h1 h2
      apply h
      rcases h1 with h1 | h1
      · exact h1
      · rcases h2 with h2 | h2
        · exact h2
        · rw [h1, h2]; ring
    have hpos := magnitude_pos hne
    unfold normalise
    simp only
    rw [if_neg (by linarith)]
    simp only [ne_eq, Option.some.injEq]
    exact hpos.ne'

/-- C31: the null result (0, 0, ALLBAD) is returned exactly when at most one pair is GOOD after
all quality control. -/
theorem C31_null_result (x : Ext) (ts : List (ι × List (Option ℝ))) (pos : List (ι × Vec)) (ref : RefArg ι)
    (method backend : String) (options : Option Dict) (out : Out ι)
    (h : (computeCmv x ts pos ref method backend options).1 = .ok out) :
    (out.speed = some 0 ∧ out.angle = some 0 ∧ out.flag = .allbad) ↔
      (out.rows.countP fun r => r.2 = .good) ≤ 1 := by
  obtain ⟨stats, o, -, -, rfl, hm⟩ := computeCmv_ok h
  unfold finish
  simp only
  set sel := (if method.toLower = "gagne" then gagneSelect (stats.map fun p => (p, pairFlag method.toLower o p))
        else (Flag.good, stats.map fun p => (p, pairFlag method.toLower o p))) with hsel
  rw [goodPairs_length]
  by_cases hc : (sel.2.countP fun r => r.2 = .good) ≤ 1
  · rw [if_pos hc]
    simpa using hc
  · rw [if_neg hc]
    simp only
    constructor
    · rintro ⟨h1, -, h3⟩
      exfalso
      by_cases hj : method.toLower = "jamaly"
      · rw [hsel] at h3
        simp only [hj, if_neg (show ¬ "jamaly" = "gagne" by decide), true_and] at h3
        split_ifs at h3
      · rw [if_neg hj] at h1
        exact gagne_speed x _ h1
    · intro h'
      exact absurd h' hc

/-- C31: speed and direction depend only on the delays and vectors of the GOOD pairs: two calls
(with the same method and the same optimisers) whose GOOD pairs agree return the same vector. -/
theorem C31_only_good (x x' : Ext) (hx : x.minimizeScalar = x'.minimizeScalar ∧ x.leastsq = x'.leastsq)
    (ts ts' : List (ι × List (Option ℝ))) (pos pos' : List (ι × Vec)) (ref ref' : RefArg ι)
    (method backend backend' : String) (options options' : Option Dict) (out out' : Out ι)
    (h : (computeCmv x ts pos ref method backend options).1 = .ok out)
    (h' : (computeCmv x' ts' pos' ref' method backend' options').1 = .ok out')
    (hgood : ((out.rows.filter fun r => r.2 = .good).map fun r => (r.1.delay, r.1.vec)) =
      ((out'.rows.filter fun r => r.2 = .good).map fun r => (r.1.delay, r.1.vec))) :
    out.speed = out'.speed ∧ out.angle = out'.angle := by
  obtain ⟨stats, o, -, -, rfl, -⟩ := computeCmv_ok h
  obtain ⟨stats', o', -, -, rfl, -⟩ := computeCmv_ok h'
  have hgood' : goodPairs (finish x method.toLower o stats).rows = goodPairs (finish x' method.toLower o' stats').rows :=
    hgood
  rw [finish_rows, finish_rows] at hgood'
  have hj : ∀ l, jamaly x l = jamaly x' l := by intro l; unfold jamaly; rw [hx.1]
  have hg : ∀ l, gagne x l = gagne x' l := by intro l; unfold gagne; rw [hx.2]
  unfold finish
  simp only [hgood', hj, hg]
  split_ifs <;> exact ⟨rfl, rfl⟩

open Classical in
/-- C32: Gagne selection.  Writing `n s` for the number of pairs that pass the pairwise checks with
peak correlation at least `s` (NaN never reaches `s`): the threshold is the first of 0.99, 0.95 with
`12 ≤ n`, else 0.9; pairs reaching the threshold keep their flag, all others become LOWCORR; the
overall flag is ALLBAD exactly when `n 0.9 < 12`, and otherwise GOOD. -/
theorem C32_gagne_threshold (x : Ext) (o : Dict) (stats : List (PairStat ι)) :
    let n := fun s : ℝ => stats.countP fun p =>
      decide (pairFlag "gagne" o p = .good ∧ ∃ v, p.peak = some v ∧ s ≤ v)
    ∃ t, ((t = 0.99 ∧ 12 ≤ n 0.99) ∨ (t = 0.95 ∧ n 0.99 < 12 ∧ 12 ≤ n 0.95) ∨
        (t = 0.9 ∧ n 0.99 < 12 ∧ n 0.95 < 12)) ∧
      (finish x "gagne" o stats).rows =
        stats.map (fun p => (p, if ∃ v, p.peak = some v ∧ t ≤ v then pairFlag "gagne" o p else .lowcorr)) ∧
      (n 0.9 < 12 → (finish x "gagne" o stats).flag = .allbad) ∧
      (12 ≤ n 0.9 → (finish x "gagne" o stats).flag = .good) := by
  intro n
  have hn : ∀ s, countGood s (stats.map fun p => (p, pairFlag "gagne" o p)) = n s := by
    intro s
    unfold countGood
    rw [List.countP_map]
    apply List.countP_congr
    intro p _
    simp [reaches]
  have hmono : ∀ s s', s ≤ s' → n s' ≤ n s := by
    intro s s' hs
    apply List.countP_mono_left
    intro p _ hp
    simp only [decide_eq_true_eq] at hp ⊢
    obtain ⟨h1, v, h2, h3⟩ := hp
    exact ⟨h1, v, h2, hs.trans h3⟩
  have h99 : n 0.99 ≤ n 0.95 := hmono _ _ (by norm_num)
  have h95 : n 0.95 ≤ n 0.9 := hmono _ _ (by norm_num)
  set rows0 := stats.map fun p => (p, pairFlag "gagne" o p) with hrows0
  obtain ⟨t, ht, hsel⟩ : ∃ t, ((t = 0.99 ∧ 12 ≤ n 0.99) ∨ (t = 0.95 ∧ n 0.99 < 12 ∧ 12 ≤ n 0.95) ∨
        (t = 0.9 ∧ n 0.99 < 12 ∧ n 0.95 < 12)) ∧
      gagneSelect rows0 = (if n t < 12 then Flag.allbad else Flag.good,
        rows0.map fun r => (r.1, if reaches t r.1 then r.2 else .lowcorr)) := by
    unfold gagneSelect
    simp only [hn]
    by_cases h1 : n 0.99 < 12
    · by_cases h2 : n 0.95 < 12
      · exact ⟨0.9, Or.inr (Or.inr ⟨rfl, h1, h2⟩), by simp only [h1, if_true, h2]⟩
      · exact ⟨0.95, Or.inr (Or.inl ⟨rfl, h1, by omega⟩), by simp only [h1, if_true, h2, if_false]⟩
    · exact ⟨0.99, Or.inl ⟨rfl, by omega⟩, by simp only [h1, if_false]⟩
  have hrows : (finish x "gagne" o stats).rows =
      stats.map (fun p => (p, if ∃ v, p.peak = some v ∧ t ≤ v then pairFlag "gagne" o p else .lowcorr)) := by
    rw [finish_rows, if_pos rfl, ← hrows0, hsel]
    simp only
    rw [hrows0, List.map_map]
    apply List.map_congr_left
    intro p _
    by_cases hp : ∃ v, p.peak = some v ∧ t ≤ v <;> simp [reaches, hp]
  have hgood : ((finish x "gagne" o stats).rows.countP fun r => r.2 = .good) = n t := by
    rw [hrows, List.countP_map]
    apply List.countP_congr
    intro p _
    by_cases hp : ∃ v, p.peak = some v ∧ t ≤ v
    · simp [hp]
    · simp [hp]
  have hflag : (finish x "gagne" o stats).flag =
      if n t ≤ 1 then .allbad else if n t < 12 then Flag.allbad else Flag.good := by
    rw [finish_rows, if_pos rfl, ← hrows0, hsel] at hgood
    unfold finish
    simp only [if_true, ← hrows0, hsel]
    rw [goodPairs_length, hgood]
    split_ifs <;> first | rfl | simp_all
  refine ⟨t, ht, hrows, ?_, ?_⟩
  · intro h9
    rw [hflag]
    have : n t < 12 := by rcases ht with ⟨rfl, h⟩ | ⟨rfl, h⟩ | ⟨rfl, h⟩ <;> omega
    rw [if_pos this]
    split_ifs <;> rfl
  · intro h9
    rw [hflag]
    have : ¬ n t < 12 := by
      rcases ht with ⟨rfl, h⟩ | ⟨rfl, h⟩ | ⟨rfl, h⟩
      · omega
      · omega
      · omega
    rw [if_neg (by omega), if_neg this]

/-! ## C33, C34 -/

private theorem good_list (rows : List (PairStat ι × Flag)) (V : Vec)
    (hw : ∀ r ∈ rows, r.2 = .good → PlaneWave V r.1) :
    ∃ pairs : List (ℝ × Vec), goodPairs rows = pairs.map (fun p => (some p.1, p.2)) ∧
      (∀ p ∈ pairs, p.1 = (p.2.1 * V.1 + p.2.2 * V.2) / (V.1 ^ 2 + V.2 ^ 2)) ∧
      (∀ p ∈ pairs, ∃ r ∈ rows, r.2 = .good ∧ r.1.delay = some p.1) ∧
      ∀ r ∈ rows, r.2 = .good → ∃ p ∈ pairs, p.2 = r.1.vec := by
  refine ⟨(rows.filter fun r => r.2 = .good).map fun r =>
    ((r.1.vec.1 * V.1 + r.1.vec.2 * V.2) / (V.1 ^ 2 + V.2 ^ 2), r.1.vec), ?_, ?_, ?_, ?_⟩
  · rw [goodPairs, List.map_map]
    apply List.map_congr_left
    intro r hr
    rw [List.mem_filter] at hr
    have := hw r hr.1 (by simpa using hr.2)
    simp only [Function.comp]
    rw [← this]
  · intro p hp
    obtain ⟨r, _, rfl⟩ := List.mem_map.1 hp
    rfl
  · intro p hp
    obtain ⟨r, hr, rfl⟩ := List.mem_map.1 hp
    rw [List.mem_filter] at hr
    exact ⟨r, hr.1, by simpa using hr.2, hw r hr.1 (by simpa using hr.2)⟩
  · intro r hr hg
    exact ⟨_, List.mem_map.2 ⟨r, List.mem_filter.2 ⟨hr, by simpa using hg⟩, rfl⟩, rfl⟩

private theorem two_of_indep {pairs : List (ℝ × Vec)} (hs : ∃ p ∈ pairs, ∃ q ∈ pairs, Independent p.2 q.2) :
    ¬ (pairs.map fun p => (some p.1, p.2)).length ≤ 1 := by
  obtain ⟨p, hp, q, hq, hpq⟩ := hs
  intro hl
  rw [List.length_map] at hl
  match pairs, hl with
  | [], _ => simp at hp
  | [a], _ =>
    simp only [List.mem_singleton] at hp hq
    subst hp; subst hq
    exact hpq (by ring)

/-- C33: if the delays of the GOOD pairs are those of a plane wave with velocity `V ≠ 0` and two
GOOD pair vectors span the plane, the Gagne method with any exact least-squares solver returns
speed |V| and a direction whose polar vector is `V`. -/
theorem C33_gagne_exact (x : Ext) (hx : ExactLsq x.leastsq) (ts : List (ι × List (Option ℝ))) (pos : List (ι × Vec))
    (ref : RefArg ι) (method backend : String) (hm : method.toLower = "gagne") (options : Option Dict) (out : Out ι)
    (h : (computeCmv x ts pos ref method backend options).1 = .ok out) (V : Vec) (hV : V ≠ 0)
    (hw : ∀ r ∈ out.rows, r.2 = .good → PlaneWave V r.1)
    (hs : ∃ r ∈ out.rows, ∃ s ∈ out.rows, r.2 = .good ∧ s.2 = .good ∧ Independent r.1.vec s.1.vec) :
    out.speed = some (magnitude V) ∧
      ∃ t, out.angle = some t ∧ 0 ≤ t ∧ t < 2 * Real.pi ∧ pol2rect (magnitude V) t = V := by
  obtain ⟨stats, o, -, -, rfl, -⟩ := computeCmv_ok h
  rw [hm] at hw hs ⊢
  obtain ⟨pairs, h1, h2, -, h4⟩ := good_list _ V hw
  have hind : ∃ p ∈ pairs, ∃ q ∈ pairs, Independent p.2 q.2 := by
    obtain ⟨r, hr, s, hs, gr, gs, hrs⟩ := hs
    obtain ⟨p, hp, hp2⟩ := h4 r hr gr
    obtain ⟨q, hq, hq2⟩ := h4 s hs gs
    exact ⟨p, hp, q, hq, by rw [hp2, hq2]; exact hrs⟩
  have hlsq : x.leastsq (pairs.map fun p => (some p.1, p.2)) =
      (V.1 / (V.1 ^ 2 + V.2 ^ 2), V.2 / (V.1 ^ 2 + V.2 ^ 2)) := by
    apply lsq_unique pairs
    · intro p hp
      rw [h2 p hp]; ring
    · exact hind
    · exact hx pairs
  have hg := gagne_inv x _ V hV hlsq
  obtain ⟨t, ht, ht0, ht1, htv⟩ := normalise_some (magnitude V) (arctan2 V.2 V.1)
  have hmp := magnitude_pos hV
  rw [abs_of_pos hmp] at ht htv
  rw [finish_rows, if_pos rfl] at h1
  have hV2 : pol2rect (magnitude V) t = V := by
    rw [htv]
    obtain ⟨e1, e2⟩ := @polar_of_vec V
    unfold pol2rect
    exact Prod.ext e1.symm e2.symm
  unfold finish
  simp only [if_true, if_neg (show ¬ "gagne" = "jamaly" by decide), h1, if_neg (two_of_indep hind), hg, ht]
  exact ⟨by trivial, t, rfl, ht0, ht1, hV2⟩

/-- C34: for plane-wave delays the objective of the Jamaly method (the variance of the velocities projected on a direction) is defined for every
direction, nonnegative, and zero exactly for the directions parallel to `V`; in the direction of `V` every projected velocity is |V|. -/
theorem C34_objective (pairs : List (ℝ × Vec)) (V : Vec) (hV : V ≠ 0) (h0 : ∀ p ∈ pairs, p.1 ≠ 0)
    (hw : ∀ p ∈ pairs, p.1 = (p.2.1 * V.1 + p.2.2 * V.2) / (V.1 ^ 2 + V.2 ^ 2))
    (hs : ∃ p ∈ pairs, ∃ q ∈ pairs, Independent p.2 q.2) (θ : ℝ) :
    ∃ v, nanvar (velocities (pairs.map fun p => (some p.1, p.2)) θ) = some v ∧ 0 ≤ v ∧
      (v = 0 ↔ V.1 * Real.sin θ = V.2 * Real.cos θ) ∧
      (pol2rect (magnitude V) θ = V → ∀ z ∈ velocities (pairs.map fun p => (some p.1, p.2)) θ, z = some (magnitude V)) :=
  jamaly_objective pairs V hV h0 hw hs θ

example : ∃ (pairs : List (ℝ × Vec)) (V : Vec), V ≠ 0 ∧ (∀ p ∈ pairs, p.1 ≠ 0) ∧
    (∀ p ∈ pairs, p.1 = (p.2.1 * V.1 + p.2.2 * V.2) / (V.1 ^ 2 + V.2 ^ 2)) ∧ ∃ p ∈ pairs, ∃ q ∈ pairs, Independent p.2 q.2 := by
  refine ⟨[(1 / 2, (1, 0)), (1 / 2, (0, 1))], (1, 1), by simp, by simp, ?_, _, List.mem_cons_self, _, List.mem_cons_of_mem _ List.mem_cons_self, by norm_num [Independent]⟩
  intro p hp
  simp only [List.mem_cons, List.not_mem_nil, or_false] at hp
  rcases hp with rfl | rfl <;> norm_num

/-- C34: under the same conditions the Jamaly method with any minimiser that finds a local minimum
of the velocity variance returns exactly speed |V|, a direction whose polar vector is `V`, and
flag GOOD. -/
theorem C34_jamaly_exact (x : Ext) (hx : LocalMinimizer x.minimizeScalar) (ts : List (ι × List (Option ℝ)))
    (pos : List (ι × Vec)) (ref : RefArg ι) (method backend : String) (hm : method.toLower = "jamaly")
    (options : Option Dict) (out : Out ι)
    (h : (computeCmv x ts pos ref method backend options).1 = .ok out) (V : Vec) (hV : V ≠ 0)
    (hw : ∀ r ∈ out.rows, r.2 = .good → PlaneWave V r.1)
    (hs : ∃ r ∈ out.rows, ∃ s ∈ out.rows, r.2 = .good ∧ s.2 = .good ∧ Independent r.1.vec s.1.vec) :
    out.speed = some (magnitude V) ∧ out.flag = .good ∧
      ∃ t, out.angle = some t ∧ 0 ≤ t ∧ t < 2 * Real.pi ∧ pol2rect (magnitude V) t = V := by
  obtain ⟨stats, o, -, -, rfl, -⟩ := computeCmv_ok h
  rw [hm] at hw hs ⊢
  obtain ⟨pairs, h1, h2, h3, h4⟩ := good_list _ V hw
  have hind : ∃ p ∈ pairs, ∃ q ∈ pairs, Independent p.2 q.2 := by
    obtain ⟨r, hr, s, hs, gr, gs, hrs⟩ := hs
    obtain ⟨p, hp, hp2⟩ := h4 r hr gr
    obtain ⟨q, hq, hq2⟩ := h4 s hs gs
    exact ⟨p, hp, q, hq, by rw [hp2, hq2]; exact hrs⟩
  have h0 : ∀ p ∈ pairs, p.1 ≠ 0 := by
    intro p hp
    obtain ⟨r, hr, hg, hd⟩ := h3 p hp
    rw [finish_rows, if_neg (by decide)] at hr
    obtain ⟨q, _, rfl⟩ := List.mem_map.1 hr
    have := ((C26_good_iff "jamaly" o q).1 hg).2.2.2.1
    simp only at hd
    rw [hd] at this
    intro h0
    rw [h0] at this
    exact this rfl
  obtain ⟨v, θ, hj, hv, hpol⟩ := jamaly_planeWave x hx pairs V hV h0 h2 hind
  obtain ⟨t, ht, ht0, ht1, htv⟩ := normalise_some v θ
  rw [hv] at ht htv
  rw [finish_rows, if_neg (by decide)] at h1
  unfold finish
  simp only [if_true, if_neg (show ¬ "jamaly" = "gagne" by decide), h1, if_neg (two_of_indep hind), hj, ht]
  exact ⟨by trivial, by simp, t, rfl, ht0, ht1, htv.trans hpol⟩

/-! Examples: three sites, reference site 0, plane wave with velocity (1, 1). -/

noncomputable def exExt (l : List (Option ℝ × Vec) → Vec) (m : (ℝ → Option ℝ) → ℝ) : Ext :=
  ⟨fun _ _ _ => (some (1 / 2), some 1, some 0), m, l⟩

noncomputable def exTs : List (ℕ × List (Option ℝ)) :=
  [(0, [some 0, some 1]), (1, [some 0, some 1]), (2, [some 0, some 1])]

noncomputable def exPos : List (ℕ × Vec) := [(0, (0, 0)), (1, (1, 0)), (2, (0, 1))]

noncomputable def exStat (a b : ℕ) (v : Vec) : PairStat ℕ :=
  ⟨a, b, v, [some 0, some 1], [some 0, some 1], some (1 / 2), some 1, some 0⟩

theorem ex_prepare (l : List (Option ℝ × Vec) → Vec) (m : (ℝ → Option ℝ) → ℝ) (method : String)
    (hm : method.toLower = "jamaly" ∨ method.toLower = "gagne") :
    prepare (exExt l m) exTs exPos (.one 0) method "xcorr" =
      .ok [exStat 0 0 (0, 0), exStat 0 1 (1, 0), exStat 0 2 (0, 1)] := by
  have hb : "xcorr".toLower = "xcorr" := by decide +kernel
  unfold prepare
  rw [hb, if_neg (by rcases hm with hm | hm <;> simp [hm]), if_neg (by simp)]
  have hp : getPairs (exPos.map Prod.fst) (some (RefArg.ids (.one 0) (exPos.map Prod.fst))) true =
      [(0, 0), (0, 1), (0, 2)] := by
    simp [exPos, getPairs, combosRepl, RefArg.ids]
  simp only [hp]
  rw [if_neg (by simp)]
  have h : ∀ a b, a < 3 → b < 3 → statOf (exExt l m) exTs exPos "xcorr" (a, b) =
      .ok (exStat a b (((if b = 1 then 1 else 0) - (if a = 1 then 1 else 0) : ℝ),
        ((if b = 2 then 1 else 0) - (if a = 2 then 1 else 0) : ℝ))) := by
    intro a b ha hb
    interval_cases a <;> interval_cases b <;> simp [statOf, exTs, exPos, exExt, exStat, dictGet?]
  simp only [List.mapM_cons, List.mapM_nil, h 0 0 (by omega) (by omega), h 0 1 (by omega) (by omega),
    h 0 2 (by omega) (by omega), bind, Except.bind, pure, Except.pure]
  simp

theorem ex_good (method : String) (o : Dict) (hk : opt o "ktlim" = 0.4)
    (hj : method = "jamaly" → opt o "minvelocity" = 0 ∧ opt o "maxvelocity" = 70 ∧ opt o "var_s_lim" = 0.05 ∧
      opt o "mincorr" = 0.8) (b : ℕ) (hb : b ≠ 0) (v : Vec) (hv : magnitude v = 1) :
    pairFlag method o (exStat 0 b v) = .good := by
  have hmax : ∀ m, IsMaxOf m [some (0 : ℝ), some 1] → m = 1 := by
    rintro m ⟨h1, h2⟩
    have := h2 1 (by simp)
    simp at h1
    rcases h1 with rfl | rfl
    · norm_num at this
    · rfl
  have hfm : List.filterMap id [some (0 : ℝ), some 1] = [0, 1] := rfl
  have havg : avgOf [some (0 : ℝ), some 1] = 1 / 2 := by rw [avgOf, hfm]; norm_num
  have hstd : ¬ StdBelow [some (0 : ℝ), some 1] 0.001 := by
    rintro ⟨_, h⟩
    rw [havg, hfm] at h
    simp only [List.map_cons, List.map_nil, List.sum_cons, List.sum_nil,
      List.length_cons, List.length_nil] at h
    rw [Real.sqrt_lt' (by norm_num)] at h
    norm_num at h
  have hmb : ¬ MaxBelow [some (0 : ℝ), some 1] 0.4 := by
    rintro ⟨m, h1, h2⟩
    rw [hmax m h1] at h2
    norm_num at h2
  rw [C26_good_iff]
  refine ⟨fun h => hb h.symm, hstd, hstd, by simp [exStat], by simp [exStat], by simp [exStat], ?_, ?_, ?_⟩
  · rw [hk]; exact hmb
  · rw [hk]; exact hmb
  · intro hm
    obtain ⟨h1, h2, h3, h4⟩ := hj hm
    have hlv : ¬ LowVariation [some (0 : ℝ), some 1] 0.05 := by
      rintro ⟨m, e1, _, e2⟩
      rw [hmax m e1, havg] at e2
      norm_num at e2
    rw [h1, h2, h3, h4]
    refine ⟨hlv, hlv, ?_, 1 / 2, rfl, by norm_num, ?_, ?_⟩
    · rintro ⟨k, e1, e2⟩
      have hk1 : k = 1 := by simpa [exStat] using e1.symm
      subst hk1
      rcases e2 with e2 | ⟨m, e3, e4⟩
      · norm_num at e2
      · have hm0 : m = 0 := by simpa [exStat] using e3.symm
        subst hm0
        norm_num at e4
    · simp only [exStat, hv]
      rw [abs_of_pos (by norm_num)]; norm_num
    · simp only [exStat, hv]
      rw [abs_of_pos (by norm_num)]; norm_num

theorem ex_mag : magnitude (1, 0) = 1 ∧ magnitude (0, 1) = 1 := by
  simp [magnitude]

/-- The hypotheses of C34 hold in a concrete case. -/
theorem ex_wave (l : List (Option ℝ × Vec) → Vec) (m : (ℝ → Option ℝ) → ℝ) :
    ∃ out, (computeCmv (exExt l m) exTs exPos (.one 0) "jamaly" "xcorr" none).1 = .ok out ∧
      (∀ r ∈ out.rows, r.2 = .good → PlaneWave (1, 1) r.1) ∧
      ∃ r ∈ out.rows, ∃ s ∈ out.rows, r.2 = .good ∧ s.2 = .good ∧ Independent r.1.vec s.1.vec := by
  have e1 : "jamaly".toLower = "jamaly" := by decide +kernel
  obtain ⟨o, ho, -, hval⟩ := (C28_validation "jamaly" (Or.inl rfl) none).1 (by simp)
  have hov : ∀ k v, (k, v) ∈ documented "jamaly" → opt o k = v := by
    intro k v h
    have := hval k v h
    unfold opt
    rw [this]
    simp [dictGet?]
  have hflag := ex_good "jamaly" o (hov _ _ (by simp [documented])) (fun _ => ⟨hov _ _ (by simp [documented]),
    hov _ _ (by simp [documented]), hov _ _ (by simp [documented]), hov _ _ (by simp [documented])⟩)
  refine ⟨finish (exExt l m) "jamaly" o [exStat 0 0 (0, 0), exStat 0 1 (1, 0), exStat 0 2 (0, 1)], ?_, ?_, ?_⟩
  · unfold computeCmv
    rw [ex_prepare l m _ (Or.inl e1)]
    simp only [e1, ho]
    rfl
  · intro r hr hg
    rw [finish_rows, if_neg (by decide)] at hr
    simp only [List.map_cons, List.map_nil, List.mem_cons, List.not_mem_nil, or_false] at hr
    rcases hr with rfl | rfl | rfl
    · exact (((C26_good_iff "jamaly" o (exStat 0 0 (0, 0))).1 hg).1 rfl).elim
    · norm_num [PlaneWave, exStat]
    · norm_num [PlaneWave, exStat]
  · rw [finish_rows, if_neg (by decide)]
    refine ⟨_, List.mem_map.2 ⟨exStat 0 1 (1, 0), by simp, rfl⟩, _, List.mem_map.2 ⟨exStat 0 2 (0, 1), by simp, rfl⟩,
      hflag 1 (by simp) _ ex_mag.1, hflag 2 (by simp) _ ex_mag.2, ?_⟩
    simp [Independent, exStat]

/-- The hypotheses of C33 hold in a concrete case. -/
theorem ex_wave_gagne (l : List (Option ℝ × Vec) → Vec) (m : (ℝ → Option ℝ) → ℝ) :
    ∃ out, (computeCmv (exExt l m) exTs exPos (.one 0) "gagne" "xcorr" none).1 = .ok out ∧
      (∀ r ∈ out.rows, r.2 = .good → PlaneWave (1, 1) r.1) ∧
      ∃ r ∈ out.rows, ∃ s ∈ out.rows, r.2 = .good ∧ s.2 = .good ∧ Independent r.1.vec s.1.vec := by
  have e1 : "gagne".toLower = "gagne" := by decide +kernel
  obtain ⟨o, ho, -, hval⟩ := (C28_validation "gagne" (Or.inr rfl) none).1 (by simp)
  have hov : ∀ k v, (k, v) ∈ documented "gagne" → opt o k = v := by
    intro k v h
    have := hval k v h
    unfold opt
    rw [this]
    simp [dictGet?]
  have hflag := ex_good "gagne" o (hov _ _ (by simp [documented])) (fun h => absurd h (by decide))
  obtain ⟨t, ht, hrows, -⟩ := C32_gagne_threshold (exExt l m) o
    [exStat 0 0 (0, 0), exStat 0 1 (1, 0), exStat 0 2 (0, 1)]
  have ht1 : ∀ (a b : ℕ) (v : Vec), ∃ w, (exStat a b v).peak = some w ∧ t ≤ w := by
    intro a b v
    refine ⟨1, rfl, ?_⟩
    rcases ht with ⟨rfl, _⟩ | ⟨rfl, _⟩ | ⟨rfl, _⟩ <;> norm_num
  simp only [List.map_cons, List.map_nil, ht1, if_true] at hrows
  refine ⟨finish (exExt l m) "gagne" o [exStat 0 0 (0, 0), exStat 0 1 (1, 0), exStat 0 2 (0, 1)], ?_, ?_, ?_⟩
  · unfold computeCmv
    rw [ex_prepare l m _ (Or.inr e1)]
    simp only [e1, ho]
    rfl
  · intro r hr hg
    rw [hrows] at hr
    simp only [List.mem_cons, List.not_mem_nil, or_false] at hr
    rcases hr with rfl | rfl | rfl
    · exact (((C26_good_iff "gagne" o (exStat 0 0 (0, 0))).1 hg).1 rfl).elim
    · norm_num [PlaneWave, exStat]
    · norm_num [PlaneWave, exStat]
  · rw [hrows]
    refine ⟨_, by simp; right; left; exact rfl, _, by simp; right; right; exact rfl,
      hflag 1 (by simp) _ ex_mag.1, hflag 2 (by simp) _ ex_mag.2, ?_⟩
    simp [Independent, exStat]

example : ∃ l m, ExactLsq (exExt l m).leastsq ∧ LocalMinimizer (exExt l m).minimizeScalar := by
  obtain ⟨l, hl⟩ := exists_lsq
  obtain ⟨m, hm⟩ := exists_localMinimizer
  exact ⟨l, m, hl, hm⟩

/-- The hypotheses of C27, C30 and C34 hold in a concrete case: the pair of site 0 with itself carries VELLIMIT, and the motion (1, 1) is recovered. -/
example : ∃ (x : Ext) (out : Out ℕ), (computeCmv x exTs exPos (.one 0) "jamaly" "xcorr" none).1 = .ok out ∧
    (∀ r ∈ out.rows, r.1.a = r.1.b → r.2 = .vellimit) ∧ out.speed = some (magnitude (1, 1)) ∧ out.flag = .good := by
  obtain ⟨m, hm⟩ := exists_localMinimizer
  obtain ⟨out, h, hw, hs⟩ := ex_wave (fun _ => 0) m
  have hj : "jamaly".toLower = "jamaly" := by decide +kernel
  have h34 := C34_jamaly_exact (exExt (fun _ => 0) m) hm exTs exPos (.one 0) "jamaly" "xcorr" hj none out h (1, 1) (by simp [Prod.ext_iff]) hw hs
  exact ⟨_, out, h, fun r hr => C27_same_site _ _ _ _ _ _ _ out hj h (by simp) r hr, h34.1, h34.2.1⟩

/-- The hypotheses of C33 hold in a concrete case. -/
example : ∃ (x : Ext) (out : Out ℕ), (computeCmv x exTs exPos (.one 0) "gagne" "xcorr" none).1 = .ok out ∧ out.speed = some (magnitude (1, 1)) := by
  obtain ⟨l, hl⟩ := exists_lsq
  obtain ⟨out, h, hw, hs⟩ := ex_wave_gagne l (fun _ => 0)
  exact ⟨_, out, h, (C33_gagne_exact (exExt l fun _ => 0) hl exTs exPos (.one 0) "gagne" "xcorr" (by decide +kernel) none out h (1, 1)
    (by simp [Prod.ext_iff]) hw hs).1⟩

/-- The hypotheses of C31 hold in a concrete case: spelling out the default options changes no GOOD pair. -/
example (x : Ext) (out : Out ℕ) (h : (computeCmv x exTs exPos (.one 0) "gagne" "xcorr" none).1 = .ok out) :
    ∃ out', (computeCmv x exTs exPos (.one 0) "gagne" "xcorr" (some [("ktlim", 0.4)])).1 = .ok out' ∧ out.speed = out'.speed ∧ out.angle = out'.angle := by
  have e1 : "gagne".toLower = "gagne" := by decide +kernel
  have hv : (validateOptions "gagne" (some [("ktlim", 0.4)])).1 = (validateOptions "gagne" none).1 := by
    simp [validateOptions, defaults, fillStep]
  have h' : (computeCmv x exTs exPos (.one 0) "gagne" "xcorr" (some [("ktlim", 0.4)])).1 = .ok out := by
    rw [← h]
    unfold computeCmv
    simp [e1, validateOptions, defaults, fillStep]
    cases prepare x exTs exPos (.one 0) "gagne" "xcorr" <;> rfl
  exact ⟨out, h', C31_only_good x x ⟨rfl, rfl⟩ _ _ _ _ _ _ "gagne" _ _ none (some [("ktlim", 0.4)]) out out h h' rfl⟩

/-! ## C35 -/

/-- C35: for nonzero vectors and n ≥ 1, `optimum_subset` returns min(n, number of vectors) distinct
in-range indices. -/
theorem C35_indices (lsa : Field.LSA) (hl : IsLSA lsa) (shgo : (ℝ → ℝ) → ℝ → ℝ → ℝ) (vs : List Vec) (n : ℕ)
    (hn : 0 < n) (hv : ∀ v ∈ vs, v ≠ 0) :
    ∃ ix, optimumSubset lsa shgo vs n = .ok ix ∧ ix.Nodup ∧ (∀ i ∈ ix, i < vs.length) ∧
      ix.length = min n vs.length := by
  unfold optimumSubset
  rw [if_neg (by omega), if_neg (fun h : ((0, 0) : Vec) ∈ vs => hv _ h rfl)]
  obtain ⟨hm, -⟩ := hl n vs.length (subsetCost vs n (shgo (fun a => (calcCost lsa vs n a).1) 0 (Real.pi / n)))
  exact ⟨_, rfl, hm.cols_nodup, hm.cols_lt, hm.cols_len⟩

/-- C35: a zero vector is rejected. -/
theorem C35_zero_vector (lsa : Field.LSA) (shgo : (ℝ → ℝ) → ℝ → ℝ → ℝ) (vs : List Vec) (n : ℕ)
    (hn : 0 < n) (hv : (0, 0) ∈ vs) : Raises (optimumSubset lsa shgo vs n) .valueError := by
  unfold optimumSubset
  rw [if_neg (by omega), if_pos hv]
  rfl

/-- C35: multiplying the vectors by nonzero factors changes neither the cost function nor the
returned indices. -/
theorem C35_scale_invariant (lsa : Field.LSA) (shgo : (ℝ → ℝ) → ℝ → ℝ → ℝ) (vs : List Vec) (n : ℕ)
    (f : ℕ → ℝ) (hf : ∀ i, f i ≠ 0) :
    let ws := vs.mapIdx fun i v => ((f i * v.1, f i * v.2) : Vec)
    (∀ a, calcCost lsa ws n a = calcCost lsa vs n a) ∧
      optimumSubset lsa shgo ws n = optimumSubset lsa shgo vs n := by
  intro ws
  have hc : ∀ a, subsetCost ws n a = subsetCost vs n a := by
    intro a
    funext i j
    apply subsetCost_scale
    refine ⟨f j, hf j, ?_⟩
    simp only [ws, List.getElem?_mapIdx]
    cases vs[j]? <;> simp
  have hlen : ws.length = vs.length := by simp [ws]
  have hcc : ∀ a, calcCost lsa ws n a = calcCost lsa vs n a := by
    intro a
    unfold calcCost
    rw [hc, hlen]
  have hz : ((0, 0) : Vec) ∈ ws ↔ ((0, 0) : Vec) ∈ vs := by
    simp only [ws, List.mem_mapIdx, Prod.mk.injEq, mul_eq_zero, hf, false_or]
    constructor
    · rintro ⟨i, hi, h1, h2⟩
      have : vs[i] = (0, 0) := Prod.ext h1 h2
      rw [← this]; exact List.getElem_mem hi
    · intro h
      obtain ⟨i, hi, e⟩ := List.mem_iff_getElem.1 h
      exact ⟨i, hi, by rw [e], by rw [e]⟩
  refine ⟨hcc, ?_⟩
  unfold optimumSubset
  simp only [hcc, hz]

/-- C35: rotating the ideal directions by π/n does not change the cost. -/
theorem C35_rotation_invariant (lsa : Field.LSA) (hl : IsLSA lsa) (vs : List Vec) (n : ℕ) (hn : 0 < n) (a : ℝ) :
    (calcCost lsa vs n (a + Real.pi / n)).1 = (calcCost lsa vs n a).1 := calcCost_rot lsa hl vs n hn a

/-- An exact global minimiser of continuous functions on an interval. -/
def GlobalMinimizer (shgo : (ℝ → ℝ) → ℝ → ℝ → ℝ) : Prop :=
  ∀ f lo hi, Continuous f → lo ≤ hi →
    (lo ≤ shgo f lo hi ∧ shgo f lo hi ≤ hi) ∧ ∀ x, lo ≤ x → x ≤ hi → f (shgo f lo hi) ≤ f x

/-- Alignment of a choice of vectors (`k`-th chosen vector with ideal direction `r k` of a fan of n
directions rotated by `a`): sum of |cos| of the angles between them. -/
noncomputable def alignment (vs : List Vec) (n : ℕ) (a : ℝ) (r c : List ℕ) : ℝ :=
  (List.zipWith (fun (i j : ℕ) => |((vs[j]?).getD (0, 0)).1 / magnitude ((vs[j]?).getD (0, 0)) * Real.cos ((i : ℝ) / n * Real.pi + a)
    + ((vs[j]?).getD (0, 0)).2 / magnitude ((vs[j]?).getD (0, 0)) * Real.sin ((i : ℝ) / n * Real.pi + a)|) r c).sum

private theorem matchCost_alignment (vs : List Vec) (n : ℕ) (a : ℝ) (r c : List ℕ) :
    matchCost (subsetCost vs n a) r c = - alignment vs n a r c := by
  unfold matchCost alignment
  induction r generalizing c with
  | nil => simp
  | cons i r ih =>
    cases c with
    | nil => simp
    | cons j c =>
      simp only [List.zipWith_cons_cons, List.sum_cons, ih]
      unfold subsetCost dot
      ring

/-- C35: the returned subset is optimal: it can be matched to a fan of n equally spaced directions
with total alignment at least that of every choice of distinct vectors with every fan, for any exact
assignment solver and global minimiser (the search is over rotations in [0, π/n] only). -/
theorem C35_optimal (lsa : Field.LSA) (hl : IsLSA lsa) (shgo : (ℝ → ℝ) → ℝ → ℝ → ℝ) (hsh : GlobalMinimizer shgo)
    (vs : List Vec) (n : ℕ) (hn : 0 < n) (ix : List ℕ) (h : optimumSubset lsa shgo vs n = .ok ix) :
    ∃ a r, IsMatching n vs.length r ix ∧
      ∀ a' r' c', IsMatching n vs.length r' c' → alignment vs n a' r' c' ≤ alignment vs n a r ix := by
  unfold optimumSubset at h
  rw [if_neg (by omega)] at h
  split_ifs at h
  simp only [Except.ok.injEq] at h
  have hpi : 0 < Real.pi / n := by have := Real.pi_pos; positivity
  obtain ⟨-, hmin⟩ := hsh (fun a => (calcCost lsa vs n a).1) 0 (Real.pi / n) (calcCost_continuous lsa hl vs n) hpi.le
  set a := shgo (fun a => (calcCost lsa vs n a).1) 0 (Real.pi / n)
  refine ⟨a, (lsa n vs.length (subsetCost vs n a)).1, ?_, ?_⟩
  · rw [← h]; exact (hl _ _ _).1
  · intro a' r' c' hm
    have hper : Function.Periodic (fun a => (calcCost lsa vs n a).1) (Real.pi / n) := calcCost_rot lsa hl vs n hn
    obtain ⟨b, hb, hbe⟩ := hper.exists_mem_Ico₀ hpi a'
    have h1 : (calcCost lsa vs n a).1 ≤ (calcCost lsa vs n a').1 := by
      have := hmin b hb.1 hb.2.le
      rw [show (calcCost lsa vs n a').1 = (calcCost lsa vs n b).1 from hbe]; exact this
    have h2 : (calcCost lsa vs n a').1 ≤ matchCost (subsetCost vs n a') r' c' := by
      rw [calcCost_eq]; exact (hl _ _ _).2 _ _ hm
    have h3 : (calcCost lsa vs n a).1 = matchCost (subsetCost vs n a) (lsa n vs.length (subsetCost vs n a)).1 ix := by
      rw [calcCost_eq, ← h]; rfl
    rw [h3, matchCost_alignment] at h1
    rw [matchCost_alignment] at h2
    linarith

example : ∃ shgo, GlobalMinimizer shgo := by
  classical
  refine ⟨fun f lo hi => if h : ∃ y, (lo ≤ y ∧ y ≤ hi) ∧ ∀ x, lo ≤ x → x ≤ hi → f y ≤ f x then h.choose else 0, ?_⟩
  intro f lo hi hf hlh
  have h : ∃ y, (lo ≤ y ∧ y ≤ hi) ∧ ∀ x, lo ≤ x → x ≤ hi → f y ≤ f x := by
    obtain ⟨y, hy, hmin⟩ := isCompact_Icc.exists_isMinOn (Set.nonempty_Icc.2 hlh) hf.continuousOn
    exact ⟨y, hy, fun x h1 h2 => hmin ⟨h1, h2⟩⟩
  simp only
  rw [dif_pos h]
  exact h.choose_spec

example : ∃ lsa, IsLSA lsa := Field.exists_lsa
example : ∀ v ∈ [((1 : ℝ), (0 : ℝ)), (0, -2), (3, 4)], v ≠ (0 : Vec) := by
  intro v hv
  simp at hv
  rcases hv with rfl | rfl | rfl <;> simp [Prod.ext_iff]

/-! ## C36 -/

/-- C36: a method other than jamaly/gagne or a backend other than xcorr/tf (in any case) raises
`ValueError` whatever the data, even if the data would raise another error. -/
theorem C36_names (x : Ext) (ts : List (ι × List (Option ℝ))) (pos : List (ι × Vec)) (ref : RefArg ι)
    (method backend : String) (options : Option Dict)
    (h : method.toLower ∉ ["jamaly", "gagne"] ∨ backend.toLower ∉ ["xcorr", "tf"]) :
    Raises (computeCmv x ts pos ref method backend options).1 .valueError := by
  unfold computeCmv prepare
  by_cases h1 : method.toLower ∉ ["jamaly", "gagne"]
  · rw [if_pos h1]; rfl
  · rw [if_neg h1, if_pos (h.resolve_left h1)]; rfl

/-- C36: the case of the names does not matter. -/
theorem C36_case_insensitive (x : Ext) (ts : List (ι × List (Option ℝ))) (pos : List (ι × Vec)) (ref : RefArg ι)
    (m m' b b' : String) (options : Option Dict) (hm : m.toLower = m'.toLower) (hb : b.toLower = b'.toLower) :
    computeCmv x ts pos ref m b options = computeCmv x ts pos ref m' b' options := by
  unfold computeCmv prepare
  rw [hm, hb]

example : "linear".toLower ∉ ["jamaly", "gagne"] := by decide +kernel
example : "JAMALY".toLower = "jamaly".toLower := by decide +kernel

/-! ## C88 -/

theorem pairs_mem (l m : List ι) (p : ι × ι) (h : p ∈ getPairs l (some m) true) :
    p.1 ∈ l ∧ p.2 ∈ l ∧ (p.1 ∈ m ∨ p.2 ∈ m) := by
  simp only [getPairs, if_true, List.mem_filter, decide_eq_true_eq] at h
  exact ⟨(mem_combosRepl_mem h.1).1, (mem_combosRepl_mem h.1).2, h.2⟩

private theorem pairs_cover (l m : List ι) (a r : ι) (ha : a ∈ l) (hr : r ∈ l) (hrm : r ∈ m) :
    ∃ p ∈ getPairs l (some m) true, p.1 = a ∨ p.2 = a := by
  obtain ⟨ix, -, h2, h3⟩ := C25_pairs l (some m) true
  obtain ⟨i, hi, rfl⟩ := List.mem_iff_getElem.1 ha
  obtain ⟨j, hj, rfl⟩ := List.mem_iff_getElem.1 hr
  have key : ∀ u v (hu : u < l.length) (hv : v < l.length), (u, v) ∈ ix → (l[u], l[v]) ∈ getPairs l (some m) true := by
    intro u v hu hv huv
    have : (l[u]?, l[v]?) ∈ ix.map fun p => (l[p.1]?, l[p.2]?) := List.mem_map.2 ⟨(u, v), huv, rfl⟩
    rw [← h3, List.getElem?_eq_getElem hu, List.getElem?_eq_getElem hv] at this
    obtain ⟨p, hp, e⟩ := List.mem_map.1 this
    simp only [Prod.mk.injEq, Option.some.injEq] at e
    rw [← e.1, ← e.2]
    exact hp
  rcases le_total i j with hij | hij
  · exact ⟨_, key i j hi hj ((h2 i j).2 ⟨hi, hj, by simpa using hij, Or.inr ⟨m, rfl, Or.inr hrm⟩⟩), Or.inl rfl⟩
  · exact ⟨_, key j i hj hi ((h2 j i).2 ⟨hj, hi, by simpa using hij, Or.inr ⟨m, rfl, Or.inl hrm⟩⟩), Or.inr rfl⟩

private theorem mapM_error {α β : Type} {f : α → Except PyErr β} {e : PyErr} (hf : ∀ a, (∃ b, f a = .ok b) ∨ f a = .error e) :
    ∀ {l : List α}, (∃ a ∈ l, f a = .error e) → l.mapM f = .error e := by
  intro l
  induction l with
  | nil => rintro ⟨a, ha, _⟩; simp at ha
  | cons a l ih =>
    rintro ⟨b, hb, he⟩
    rw [List.mapM_cons]
    rcases hf a with ⟨c, hc⟩ | hc
    · rcases List.mem_cons.1 hb with rfl | hb
      · rw [hc] at he; cases he
      · rw [hc, ih ⟨b, hb, he⟩]; rfl
    · rw [hc]; rfl

theorem mapM_total {α β : Type} {f : α → Except PyErr β} : ∀ {l : List α}, (∀ a ∈ l, ∃ b, f a = .ok b) →
    ∃ r, l.mapM f = .ok r := by
  intro l
  induction l with
  | nil => intro _; exact ⟨[], rfl⟩
  | cons a l ih =>
    intro h
    obtain ⟨b, hb⟩ := h a (by simp)
    obtain ⟨r, hr⟩ := ih fun a ha => h a (by simp [ha])
    exact ⟨b :: r, by rw [List.mapM_cons, hb, hr]; rfl⟩

private theorem statOf_cases (x : Ext) (ts : List (ι × List (Option ℝ))) (pos : List (ι × Vec)) (b : String) (p : ι × ι) :
    (∃ s, statOf x ts pos b p = .ok s) ∨ statOf x ts pos b p = .error .keyError := by
  unfold statOf
  split
  · exact Or.inl ⟨_, rfl⟩
  · exact Or.inr rfl

private theorem statOf_ok_iff (x : Ext) (ts : List (ι × List (Option ℝ))) (pos : List (ι × Vec)) (b : String) (p : ι × ι)
    (h1 : p.1 ∈ pos.map Prod.fst) (h2 : p.2 ∈ pos.map Prod.fst) :
    (∃ s, statOf x ts pos b p = .ok s) ↔ p.1 ∈ ts.map Prod.fst ∧ p.2 ∈ ts.map Prod.fst := by
  have hp1 : dictGet? pos p.1 ≠ none := fun h => (dictGet?_none pos p.1).1 h h1
  have hp2 : dictGet? pos p.2 ≠ none := fun h => (dictGet?_none pos p.2).1 h h2
  obtain ⟨v1, hv1⟩ := Option.ne_none_iff_exists'.1 hp1
  obtain ⟨v2, hv2⟩ := Option.ne_none_iff_exists'.1 hp2
  have ht : ∀ k, k ∈ ts.map Prod.fst ↔ dictGet? ts k ≠ none := by
    intro k; rw [ne_eq, dictGet?_none, not_not]
  rw [ht, ht]
  unfold statOf
  rw [hv1, hv2]
  cases dictGet? ts p.1 <;> cases dictGet? ts p.2 <;> simp

theorem isRef_iff {ref : RefArg ι} {ids : List ι} {i : ι} (hi : i ∈ ids) : IsRef ref i ↔ i ∈ ref.ids ids := by
  unfold IsRef
  cases ref with
  | none => simp [RefArg.ids, hi]
  | one r => simp [RefArg.ids, eq_comm]
  | many rs => simp [RefArg.ids]

theorem cmv_outcome (x : Ext) (ts : List (ι × List (Option ℝ))) (pos : List (ι × Vec)) (ref : RefArg ι)
    (method backend : String) (options : Option Dict)
    (hm : method.toLower = "jamaly" ∨ method.toLower = "gagne") (hb : backend.toLower = "xcorr" ∨ backend.toLower = "tf") :
    let ids := pos.map Prod.fst
    let res := (computeCmv x ts pos ref method backend options).1
    ((∀ i ∈ ids, i ∉ ref.ids ids) → Raises res .indexError) ∧
    ((∃ i ∈ ids, i ∈ ref.ids ids) → (∃ i ∈ ids, i ∉ ts.map Prod.fst) → Raises res .keyError) ∧
    ((∃ i ∈ ids, i ∈ ref.ids ids) → (∀ i ∈ ids, i ∈ ts.map Prod.fst) →
      (∃ kv ∈ options.getD [], kv.1 ∉ (documented method.toLower).map Prod.fst) → Raises res .valueError) ∧
    ((∃ i ∈ ids, i ∈ ref.ids ids) → (∀ i ∈ ids, i ∈ ts.map Prod.fst) →
      (∀ kv ∈ options.getD [], kv.1 ∈ (documented method.toLower).map Prod.fst) → ∃ out, res = .ok out) := by
  intro ids res
  have hprep : prepare x ts pos ref method backend =
      if getPairs ids (some (ref.ids ids)) true = [] then .error .indexError
      else (getPairs ids (some (ref.ids ids)) true).mapM (statOf x ts pos backend.toLower) := by
    unfold prepare
    rw [if_neg (by rcases hm with h | h <;> simp [h]), if_neg (by rcases hb with h | h <;> simp [h])]
  have hmem := pairs_mem ids (ref.ids ids)
  have hne : (∃ i ∈ ids, i ∈ ref.ids ids) → getPairs ids (some (ref.ids ids)) true ≠ [] := by
    rintro ⟨i, h1, h2⟩ h0
    obtain ⟨p, hp, _⟩ := pairs_cover ids (ref.ids ids) i i h1 h1 h2
    rw [h0] at hp
    simp at hp
  have hok : (∃ i ∈ ids, i ∈ ref.ids ids) → (∀ i ∈ ids, i ∈ ts.map Prod.fst) →
      ∃ stats, prepare x ts pos ref method backend = .ok stats := by
    intro h1 h2
    rw [hprep, if_neg (hne h1)]
    apply mapM_total
    intro p hp
    obtain ⟨m1, m2, -⟩ := hmem p hp
    exact (statOf_ok_iff x ts pos _ p m1 m2).2 ⟨h2 _ m1, h2 _ m2⟩
  refine ⟨?_, ?_, ?_, ?_⟩
  · intro h
    have h0 : getPairs ids (some (ref.ids ids)) true = [] := by
      rw [List.eq_nil_iff_forall_not_mem]
      intro p hp
      obtain ⟨m1, m2, m3 | m3⟩ := hmem p hp
      · exact h _ m1 m3
      · exact h _ m2 m3
    rw [h0, if_pos rfl] at hprep
    simp only [res, computeCmv, hprep]
    rfl
  · rintro h1 ⟨i, hi, hit⟩
    have h1' := h1
    obtain ⟨r, hr, hrr⟩ := h1'
    obtain ⟨p, hp, hpi⟩ := pairs_cover ids (ref.ids ids) i r hi hr hrr
    obtain ⟨m1, m2, -⟩ := hmem p hp
    have he : prepare x ts pos ref method backend = .error .keyError := by
      rw [hprep, if_neg (hne h1)]
      apply mapM_error (statOf_cases x ts pos _)
      refine ⟨p, hp, ?_⟩
      rcases statOf_cases x ts pos backend.toLower p with hs | hs
      · exfalso
        have := (statOf_ok_iff x ts pos _ p m1 m2).1 hs
        rcases hpi with rfl | rfl
        · exact hit this.1
        · exact hit this.2
      · exact hs
    simp only [res, computeCmv, he]
    rfl
  · intro h1 h2 h3
    obtain ⟨stats, hs⟩ := hok h1 h2
    have := (C28_validation method.toLower hm options).2 h3
    simp only [res, computeCmv, hs]
    unfold Raises at this ⊢
    rw [this]
    rfl
  · intro h1 h2 h3
    obtain ⟨stats, hs⟩ := hok h1 h2
    obtain ⟨o, ho, -⟩ := (C28_validation method.toLower hm options).1 h3
    simp only [res, computeCmv, hs, ho]
    exact ⟨_, rfl⟩

/-- C88: with valid method and backend names, `compute_cmv` raises `IndexError` if no reference is
one of the points, else `KeyError` if some point has no time series, else `ValueError` if an option
is not one of the method's, and otherwise returns a result. -/
theorem C88_outcome (x : Ext) (ts : List (ι × List (Option ℝ))) (pos : List (ι × Vec)) (ref : RefArg ι)
    (method backend : String) (options : Option Dict)
    (hm : method.toLower = "jamaly" ∨ method.toLower = "gagne") (hb : backend.toLower = "xcorr" ∨ backend.toLower = "tf") :
    let ids := pos.map Prod.fst
    let res := (computeCmv x ts pos ref method backend options).1
    ((∀ i ∈ ids, ¬ IsRef ref i) → Raises res .indexError) ∧
    ((∃ i ∈ ids, IsRef ref i) → (∃ i ∈ ids, i ∉ ts.map Prod.fst) → Raises res .keyError) ∧
    ((∃ i ∈ ids, IsRef ref i) → (∀ i ∈ ids, i ∈ ts.map Prod.fst) →
      (∃ kv ∈ options.getD [], kv.1 ∉ (documented method.toLower).map Prod.fst) → Raises res .valueError) ∧
    ((∃ i ∈ ids, IsRef ref i) → (∀ i ∈ ids, i ∈ ts.map Prod.fst) →
      (∀ kv ∈ options.getD [], kv.1 ∈ (documented method.toLower).map Prod.fst) → ∃ out, res = .ok out) := by
  intro ids res
  have h : (∀ i ∈ ids, ¬ IsRef ref i) ↔ ∀ i ∈ ids, i ∉ ref.ids ids :=
    forall₂_congr fun i hi => not_congr (isRef_iff hi)
  have h' : (∃ i ∈ ids, IsRef ref i) ↔ ∃ i ∈ ids, i ∈ ref.ids ids :=
    exists_congr fun i => and_congr_right fun hi => isRef_iff hi
  rw [h, h']
  exact cmv_outcome x ts pos ref method backend options hm hb

example : ∃ i ∈ ([(0, (0, 0)), (1, (1, 0))] : List (ℕ × Vec)).map Prod.fst, IsRef (.one 1) i :=
  ⟨1, by simp, .inr (.inl rfl)⟩

end SST.Props.Cmv
