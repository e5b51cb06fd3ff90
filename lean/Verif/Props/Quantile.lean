import Verif.Proofs.Quantile

/-!
# Properties C61, C62, C63, C115: quantile summary and clear-sky index

Stamps are whole seconds from a midnight, `day` is 86400.  `windowVals n ts x` (Proofs/Quantile.lean) lists
the values of `ts` present between `n` days before the day of `x` and midnight of that day, both included,
at the time of day of `x`.
-/

namespace SST.Props.Quantile
open SST SST.Stats

/-- Increasing stamps. -/
abbrev Increasing (ts : List (ℤ × Option ℝ)) : Prop := (ts.map Prod.fst).Pairwise (· < ·)

/-- The name of the result: a Series gives its name with the suffix or 'quantile', a frame its column name with the suffix. -/
def nameOk (isFrame : Bool) (name : ColName) (nm : String) : Prop :=
  (∃ s, name = .str s ∧ nm = s ++ "_quant") ∨ (isFrame = false ∧ (∀ s, name ≠ .str s) ∧ nm = "quantile")

theorem quantName_ok {isFrame : Bool} {name : ColName} {nm : String} : quantName isFrame name = .ok nm ↔ nameOk isFrame name nm := by
  unfold quantName nameOk
  cases name <;> cases isFrame <;> simp [eq_comm]

/-! ## C61 -/

/-- C61: the output has exactly the input's stamps and one column named after the input; the value at `x` is NaN unless the day
`n` days before `x` has data, and otherwise the quantile over the window that ends at midnight of the day of `x`. -/
theorem C61_value (isFrame : Bool) (name : ColName) (nm : String) (hnm : nameOk isFrame name nm) (ts : List (ℤ × Option ℝ)) (hne : ts ≠ []) (hs : Increasing ts)
    (n : ℤ) (q : ℝ) :
    calcQuantile isFrame name ts n q = .ok (nm, ts.map fun p =>
      (p.1, if p.1 / day - n ∈ ts.map (fun p => p.1 / day) then quantileLin q (windowVals n ts p.1) else none)) := by
  unfold calcQuantile
  rw [if_neg hne, quantName_ok.2 hnm]
  simp only [Except.map]
  congr 2
  apply List.map_congr_left
  intro p hp
  rw [rows_lookup hs q (List.mem_map.2 ⟨p, hp, rfl⟩)]

/-- C61: no later value matters: two inputs with the same stamps whose values agree from `n` days before day `D` up to midnight of
`D` have the same output on day `D`. -/
theorem C61_noninterference (isFrame : Bool) (name : ColName) (nm : String) (hnm : nameOk isFrame name nm) (ts ts' : List (ℤ × Option ℝ)) (hne : ts ≠ [])
    (hs : Increasing ts) (n : ℤ) (q : ℝ) (D : ℤ)
    (hstamps : ts.map Prod.fst = ts'.map Prod.fst)
    (hagree : ∀ p ∈ ts.zip ts', (D - n) * day ≤ p.1.1 → p.1.1 ≤ D * day → p.1.2 = p.2.2) :
    ∃ out out', calcQuantile isFrame name ts n q = .ok (nm, out) ∧ calcQuantile isFrame name ts' n q = .ok (nm, out') ∧
      ∀ p ∈ out.zip out', p.1.1 / day = D → p.1 = p.2 := by
  have hlen : ts.length = ts'.length := by have := congrArg List.length hstamps; simpa using this
  have hne' : ts' ≠ [] := by rintro rfl; simp at hlen; exact hne hlen
  have hs' : Increasing ts' := by unfold Increasing; rw [← hstamps]; exact hs
  refine ⟨_, _, C61_value isFrame name nm hnm ts hne hs n q, C61_value isFrame name nm hnm ts' hne' hs' n q, ?_⟩
  intro p hp hD
  rw [List.zip_map, List.mem_map] at hp
  obtain ⟨⟨a, b⟩, hab, rfl⟩ := hp
  simp only [Prod.map_apply] at hD ⊢
  have hst : ∀ c ∈ ts.zip ts', c.1.1 = c.2.1 := by
    intro c hc
    obtain ⟨i, hi, rfl⟩ := List.mem_iff_getElem.1 hc
    simp only [List.length_zip] at hi
    simp only [List.getElem_zip]
    have h1 : (ts.map Prod.fst)[i]'(by simp; omega) = (ts'.map Prod.fst)[i]'(by simp; omega) := by simp only [hstamps]
    simpa using h1
  have hx : a.1 = b.1 := hst _ hab
  have hdays : ts.map (fun p => p.1 / day) = ts'.map (fun p => p.1 / day) := by
    have := congrArg (List.map fun (z : ℤ) => z / day) hstamps
    simpa [List.map_map, Function.comp_def] using this
  have hw : windowVals n ts a.1 = windowVals n ts' a.1 := by
    have e1 : windowVals n ts a.1 = (ts.zip ts').filterMap fun c => if (a.1 / day - n) * day ≤ c.1.1 ∧ c.1.1 ≤ (a.1 / day) * day ∧ c.1.1 % day = a.1 % day then c.1.2 else none := by
      unfold windowVals
      conv_lhs => rw [← List.map_fst_zip (l₁ := ts) (l₂ := ts') hlen.le]
      rw [List.filterMap_map]; rfl
    have e2 : windowVals n ts' a.1 = (ts.zip ts').filterMap fun c => if (a.1 / day - n) * day ≤ c.2.1 ∧ c.2.1 ≤ (a.1 / day) * day ∧ c.2.1 % day = a.1 % day then c.2.2 else none := by
      unfold windowVals
      conv_lhs => rw [← List.map_snd_zip (l₁ := ts) (l₂ := ts') hlen.ge]
      rw [List.filterMap_map]; rfl
    rw [e1, e2]
    apply List.filterMap_congr
    intro c hc
    rw [← hst c hc]
    by_cases hcond : (a.1 / day - n) * day ≤ c.1.1 ∧ c.1.1 ≤ (a.1 / day) * day ∧ c.1.1 % day = a.1 % day
    · rw [if_pos hcond, if_pos hcond]
      rw [hD] at hcond
      exact hagree c hc hcond.1 hcond.2.1
    · rw [if_neg hcond, if_neg hcond]
  rw [← hx, ← hdays, hw]

/-- C61: data recorded later do not change earlier output: running on a longer series and keeping the old stamps is the same
as running on the shorter series. -/
theorem C61_causal (isFrame : Bool) (name : ColName) (nm : String) (hnm : nameOk isFrame name nm) (ts later : List (ℤ × Option ℝ)) (hne : ts ≠ [])
    (hs : Increasing (ts ++ later)) (n : ℤ) (hn : 0 ≤ n) (q : ℝ) :
    ∃ out out', calcQuantile isFrame name ts n q = .ok (nm, out) ∧ calcQuantile isFrame name (ts ++ later) n q = .ok (nm, out ++ out') := by
  have hs1 : Increasing ts := by
    have := hs
    unfold Increasing at this ⊢
    rw [List.map_append, List.pairwise_append] at this
    exact this.1
  refine ⟨_, later.map fun p => (p.1, if p.1 / day - n ∈ (ts ++ later).map (fun p => p.1 / day) then quantileLin q (windowVals n (ts ++ later) p.1) else none),
    C61_value isFrame name nm hnm ts hne hs1 n q, ?_⟩
  · rw [C61_value isFrame name nm hnm (ts ++ later) (by simp [hne]) hs n q]
    rw [List.map_append (l₁ := ts) (l₂ := later) (f := fun p : ℤ × Option ℝ => (p.1, if p.1 / day - n ∈ (ts ++ later).map (fun p => p.1 / day) then quantileLin q (windowVals n (ts ++ later) p.1) else none))]
    congr 3
    apply List.map_congr_left
    intro p hp
    have hlt : ∀ r ∈ later, p.1 < r.1 := by
      intro r hr
      unfold Increasing at hs
      rw [List.map_append, List.pairwise_append] at hs
      exact hs.2.2 p.1 (List.mem_map.2 ⟨p, hp, rfl⟩) r.1 (List.mem_map.2 ⟨r, hr, rfl⟩)
    have hday : (0 : ℤ) < day := by decide
    have hw : windowVals n (ts ++ later) p.1 = windowVals n ts p.1 := by
      unfold windowVals
      rw [List.filterMap_append]
      have : (later.filterMap fun r => if (p.1 / day - n) * day ≤ r.1 ∧ r.1 ≤ (p.1 / day) * day ∧ r.1 % day = p.1 % day then r.2 else none) = [] := by
        rw [List.filterMap_eq_nil_iff]
        intro r hr
        rw [if_neg]
        rintro ⟨-, h2, -⟩
        have h3 := hlt r hr
        have h4 := Int.mul_ediv_add_emod p.1 day
        have h5 := Int.emod_nonneg p.1 hday.ne'
        rw [Int.mul_comm] at h4
        omega
      rw [this, List.append_nil]
    rw [hw]
    congr 1
    by_cases hin : p.1 / day - n ∈ ts.map (fun p => p.1 / day)
    · rw [if_pos hin, if_pos (by rw [List.map_append]; exact List.mem_append_left _ hin)]
    · rw [if_neg hin]
      by_cases hin2 : p.1 / day - n ∈ (ts ++ later).map (fun p => p.1 / day)
      · exfalso
        rw [List.map_append, List.mem_append] at hin2
        rcases hin2 with h | h
        · exact hin h
        · obtain ⟨r, hr, he⟩ := List.mem_map.1 h
          have h3 : p.1 / day ≤ r.1 / day := Int.ediv_le_ediv hday (hlt r hr).le
          have : p.1 / day - n = p.1 / day := by omega
          exact hin (List.mem_map.2 ⟨p, hp, by omega⟩)
      · rw [if_neg hin2]

/-- C61: NaN on every day before the first complete window. -/
theorem C61_first_days (isFrame : Bool) (name : ColName) (nm : String) (hnm : nameOk isFrame name nm) (a : ℤ × Option ℝ) (rest : List (ℤ × Option ℝ))
    (hs : Increasing (a :: rest)) (n : ℤ) (q : ℝ) :
    ∃ out, calcQuantile isFrame name (a :: rest) n q = .ok (nm, out) ∧ ∀ p ∈ out, p.1 / day < a.1 / day + n → p.2 = none := by
  refine ⟨_, C61_value isFrame name nm hnm _ (by simp) hs n q, ?_⟩
  intro p hp hlt
  obtain ⟨r, -, rfl⟩ := List.mem_map.1 hp
  simp only at hlt ⊢
  rw [if_neg]
  intro hin
  obtain ⟨z, hz, he⟩ := List.mem_map.1 hin
  have : a.1 ≤ z.1 := by
    rcases List.mem_cons.1 hz with rfl | hz
    · exact le_rfl
    · unfold Increasing at hs
      rw [List.map_cons, List.pairwise_cons] at hs
      exact (hs.1 z.1 (List.mem_map.2 ⟨z, hz, rfl⟩)).le
  have h3 : a.1 / day ≤ z.1 / day := Int.ediv_le_ediv (by decide) this
  omega

/-- C61: errors: an empty series is an `IndexError`, a frame whose column name is not a string a `TypeError`. -/
theorem C61_errors (isFrame : Bool) (name : ColName) (ts : List (ℤ × Option ℝ)) (n : ℤ) (q : ℝ) :
    Raises (calcQuantile isFrame name [] n q) .indexError ∧
    (ts ≠ [] → (∀ s, name ≠ .str s) → Raises (calcQuantile true name ts n q) .typeError) := by
  refine ⟨by unfold calcQuantile; simp [Raises], ?_⟩
  intro hne hname
  unfold calcQuantile quantName
  rw [if_neg hne]
  cases name with
  | str s => exact absurd rfl (hname s)
  | none => simp [Raises, Except.map]
  | other => simp [Raises, Except.map]

example : nameOk true (.str "ghi") "ghi_quant" ∧ nameOk false .none "quantile" ∧
    Increasing [(3600, some 1), (86400 + 3600, none), (2 * 86400 + 3600, some 2)] := by
  refine ⟨Or.inl ⟨"ghi", rfl, rfl⟩, Or.inr ⟨rfl, by simp, rfl⟩, ?_⟩
  simp [Increasing]

/-! ## C62 -/

/-- C62: every output value lies within the range of the window's values at that time of day. -/
theorem C62_range (isFrame : Bool) (name : ColName) (nm : String) (hnm : nameOk isFrame name nm) (ts : List (ℤ × Option ℝ)) (hne : ts ≠ []) (hs : Increasing ts)
    (n : ℤ) (q : ℝ) (h0 : 0 ≤ q) (h1 : q ≤ 1) :
    ∃ out, calcQuantile isFrame name ts n q = .ok (nm, out) ∧
      ∀ p ∈ out, ∀ v, p.2 = some v → (∃ lo ∈ windowVals n ts p.1, lo ≤ v) ∧ (∃ hi ∈ windowVals n ts p.1, v ≤ hi) ∧
        ∀ c, (∀ u ∈ windowVals n ts p.1, u = c) → v = c := by
  refine ⟨_, C61_value isFrame name nm hnm ts hne hs n q, ?_⟩
  intro p hp v hv
  obtain ⟨r, -, rfl⟩ := List.mem_map.1 hp
  simp only at hv ⊢
  split_ifs at hv with hin
  rw [quantileLin_eq] at hv
  split_ifs at hv with hl
  have hlp := List.length_pos_iff.2 hl
  have hlr : (1 : ℝ) ≤ (windowVals n ts r.1).length := by exact_mod_cast hlp
  have hp0 : 0 ≤ q * ((windowVals n ts r.1).length - 1 : ℝ) := mul_nonneg h0 (by linarith)
  have hp1 : q * ((windowVals n ts r.1).length - 1 : ℝ) ≤ (windowVals n ts r.1).length - 1 := by nlinarith
  obtain ⟨hf, hc, -⟩ := idx_bounds hlp hp0 hp1
  obtain ⟨hb1, hb2⟩ := interp_between hl hp0 hp1
  rw [Option.some.injEq] at hv
  rw [hv] at hb1 hb2
  refine ⟨⟨_, srt_mem hf, hb1⟩, ⟨_, srt_mem hc, hb2⟩, ?_⟩
  intro c hcst
  rw [hcst _ (srt_mem hf)] at hb1
  rw [hcst _ (srt_mem hc)] at hb2
  linarith

/-- The hypotheses of C61, C62 and C115 hold in a concrete case: a named series over two days, a missing value in between. -/
example : ∃ out, calcQuantile false (.str "a") [(0, some 1), (43200, none), (86400, some 3)] 1 0.5 = .ok ("a_quant", out) ∧
    ∀ p ∈ out, ∀ v, p.2 = some v → ∃ lo ∈ windowVals 1 [(0, some 1), (43200, none), (86400, some 3)] p.1, lo ≤ v := by
  obtain ⟨out, h1, h2⟩ := C62_range false (.str "a") "a_quant" (Or.inl ⟨"a", rfl, by decide +kernel⟩) [(0, some 1), (43200, none), (86400, some 3)] (by simp)
    (by simp [Increasing]) 1 0.5 (by norm_num) (by norm_num)
  exact ⟨out, h1, fun p hp v hv => (h2 p hp v hv).1⟩

/-- C62: a larger level gives a larger (or equal) value at every stamp, and NaN at the same stamps. -/
theorem C62_monotone (isFrame : Bool) (name : ColName) (nm : String) (hnm : nameOk isFrame name nm) (ts : List (ℤ × Option ℝ)) (hne : ts ≠ []) (hs : Increasing ts)
    (n : ℤ) (q q' : ℝ) (h0 : 0 ≤ q) (hqq : q ≤ q') (h1 : q' ≤ 1) :
    ∃ out out', calcQuantile isFrame name ts n q = .ok (nm, out) ∧ calcQuantile isFrame name ts n q' = .ok (nm, out') ∧
      List.Forall₂ (fun a b => a.1 = b.1 ∧ (a.2 = none ↔ b.2 = none) ∧ ∀ u v, a.2 = some u → b.2 = some v → u ≤ v) out out' := by
  refine ⟨_, _, C61_value isFrame name nm hnm ts hne hs n q, C61_value isFrame name nm hnm ts hne hs n q', ?_⟩
  rw [List.forall₂_map_left_iff, List.forall₂_map_right_iff]
  apply List.forall₂_same.2
  intro p _
  refine ⟨rfl, ?_⟩
  simp only
  split_ifs with hin
  · rw [quantileLin_eq, quantileLin_eq]
    split_ifs with hl
    · simp
    · refine ⟨by simp, ?_⟩
      intro u v hu hv
      rw [Option.some.injEq] at hu hv
      subst hu; subst hv
      have hlr : (1 : ℝ) ≤ (windowVals n ts p.1).length := by exact_mod_cast List.length_pos_iff.2 hl
      apply interp_mono hl
      · exact mul_nonneg h0 (by linarith)
      · exact mul_le_mul_of_nonneg_right hqq (by linarith)
      · nlinarith
  · simp

/-- C62: level 0 is the minimum and level 1 the maximum of the window's values at that time of day. -/
theorem C62_extremes (isFrame : Bool) (name : ColName) (nm : String) (hnm : nameOk isFrame name nm) (ts : List (ℤ × Option ℝ)) (hne : ts ≠ []) (hs : Increasing ts)
    (n : ℤ) :
    (∃ out, calcQuantile isFrame name ts n 0 = .ok (nm, out) ∧
      ∀ p ∈ out, ∀ v, p.2 = some v → v ∈ windowVals n ts p.1 ∧ ∀ u ∈ windowVals n ts p.1, v ≤ u) ∧
    (∃ out, calcQuantile isFrame name ts n 1 = .ok (nm, out) ∧
      ∀ p ∈ out, ∀ v, p.2 = some v → v ∈ windowVals n ts p.1 ∧ ∀ u ∈ windowVals n ts p.1, u ≤ v) := by
  have hget : ∀ (l : List ℝ) (u : ℝ), u ∈ l → ∃ i, i < l.length ∧ (srt l).getD i 0 = u := by
    intro l u hu
    have : u ∈ srt l := (List.perm_insertionSort (· ≤ ·) l).mem_iff.2 hu
    obtain ⟨i, hi, rfl⟩ := List.mem_iff_getElem.1 this
    rw [srt_length] at hi
    exact ⟨i, hi, List.getD_eq_getElem _ _ _⟩
  constructor
  · refine ⟨_, C61_value isFrame name nm hnm ts hne hs n 0, ?_⟩
    intro p hp v hv
    obtain ⟨r, -, rfl⟩ := List.mem_map.1 hp
    simp only at hv ⊢
    split_ifs at hv with hin
    rw [quantileLin_eq] at hv
    split_ifs at hv with hl
    rw [Option.some.injEq] at hv
    subst hv
    have hlp := List.length_pos_iff.2 hl
    have he : interpAt (windowVals n ts r.1) (0 * ((windowVals n ts r.1).length - 1 : ℝ)) = (srt (windowVals n ts r.1)).getD 0 0 := by
      unfold interpAt; simp
    rw [he]
    refine ⟨srt_mem hlp, ?_⟩
    intro u hu
    obtain ⟨i, hi, rfl⟩ := hget _ u hu
    exact srt_mono (Nat.zero_le i) hi
  · refine ⟨_, C61_value isFrame name nm hnm ts hne hs n 1, ?_⟩
    intro p hp v hv
    obtain ⟨r, -, rfl⟩ := List.mem_map.1 hp
    simp only at hv ⊢
    split_ifs at hv with hin
    rw [quantileLin_eq] at hv
    split_ifs at hv with hl
    rw [Option.some.injEq] at hv
    subst hv
    have hlp := List.length_pos_iff.2 hl
    have he : interpAt (windowVals n ts r.1) (1 * ((windowVals n ts r.1).length - 1 : ℝ)) = (srt (windowVals n ts r.1)).getD ((windowVals n ts r.1).length - 1) 0 := by
      obtain ⟨m, hm⟩ : ∃ m, (windowVals n ts r.1).length = m + 1 := ⟨(windowVals n ts r.1).length - 1, by omega⟩
      unfold interpAt
      rw [hm]
      simp
    rw [he]
    refine ⟨srt_mem (by omega), ?_⟩
    intro u hu
    obtain ⟨i, hi, rfl⟩ := hget _ u hu
    exact srt_mono (by omega) (by omega)

/-! ## C115 -/

/-- C115, the part that holds: if the day `n` days earlier has any data, the output is a number exactly when the window has a value
at that time of day. -/
theorem C115_value_partial (isFrame : Bool) (name : ColName) (nm : String) (hnm : nameOk isFrame name nm) (ts : List (ℤ × Option ℝ)) (hne : ts ≠ [])
    (hs : Increasing ts) (n : ℤ) (q : ℝ) :
    ∃ out, calcQuantile isFrame name ts n q = .ok (nm, out) ∧
      ∀ p ∈ out, (∃ r ∈ ts, r.1 / day = p.1 / day - n) → (p.2 ≠ none ↔ windowVals n ts p.1 ≠ []) := by
  refine ⟨_, C61_value isFrame name nm hnm ts hne hs n q, ?_⟩
  intro p hp hex
  obtain ⟨r, -, rfl⟩ := List.mem_map.1 hp
  simp only at hex ⊢
  obtain ⟨z, hz, he⟩ := hex
  rw [if_pos (List.mem_map.2 ⟨z, hz, he⟩), quantileLin_eq]
  by_cases hl : windowVals n ts r.1 = []
  · simp [hl]
  · simp [hl]

/-- C115 violated: a day without any record blanks the output `n` days later, although the series is long enough and the window
holds a value for that time of day (data on days 0, 2, 3; window of 2 days; output on day 3). -/
theorem C115_violated_gap :
    let ts : List (ℤ × Option ℝ) := [(43200, some 1), (2 * 86400 + 43200, some 5), (3 * 86400 + 43200, some 7)]
    windowVals 2 ts (3 * 86400 + 43200) = [5] ∧
    calcQuantile false (.str "p") ts 2 (9 / 10) = .ok ("p_quant", [(43200, none), (2 * 86400 + 43200, some 1), (3 * 86400 + 43200, none)]) := by
  intro ts
  constructor
  · simp [windowVals, ts, day]
  · rw [C61_value false (.str "p") "p_quant" (Or.inl ⟨"p", rfl, by decide⟩) ts (by simp [ts]) (by simp [Increasing, ts]) 2 (9 / 10)]
    have h2 : windowVals 2 ts (2 * 86400 + 43200) = [1] := by simp [windowVals, ts, day]
    have hq : quantileLin (9 / 10) [(1 : ℝ)] = some 1 := by simp [quantileLin]
    simp only [ts, List.map_cons, List.map_nil] at h2 ⊢
    rw [h2, hq]
    simp [day]

/-! ## C63 -/

open SST.Irradiance

/-- C63, the part that holds: for a Series every value is NaN (exactly where an input is) or within `[0, max]`, zero where the clear sky is
zero, the clipped quotient otherwise. -/
theorem C63_series_partial (g cs : List (Option ℝ)) (hl : g.length = cs.length) (mx : ℝ) (hmx : 0 ≤ mx) :
    ∃ k, clearskyIndex false [g] cs mx = [k] ∧ k.length = g.length ∧
      ∀ (i : ℕ) x y, g[i]? = some x → cs[i]? = some y → ∃ z, k[i]? = some z ∧ (z = none ↔ x = none ∨ y = none) ∧
        ∀ v, z = some v → 0 ≤ v ∧ v ≤ mx ∧ (y = some 0 → v = 0) ∧
          ∀ a b, x = some a → y = some b → b ≠ 0 → (0 ≤ a / b → a / b ≤ mx → v = a / b) ∧ (a / b < 0 → v = 0) ∧ (mx < a / b → v = mx) := by
  refine ⟨_, rfl, by simp [hl], ?_⟩
  intro i x y hx hy
  refine ⟨pvlibClearsky x y mx, by simp [List.getElem?_zipWith, hx, hy], ?_, ?_⟩
  · rcases x with _ | a <;> rcases y with _ | b <;> simp [pvlibClearsky]
  · intro v hv
    rcases x with _ | a
    · simp [pvlibClearsky] at hv
    · rcases y with _ | b
      · simp [pvlibClearsky] at hv
      · simp only [pvlibClearsky, Option.bind_some, Option.map_some, Option.some.injEq] at hv
        subst hv
        refine ⟨le_min (le_max_right _ _) hmx, min_le_right _ _, ?_, ?_⟩
        · intro h0
          rw [Option.some.injEq] at h0
          rw [if_pos h0]
          simp [hmx]
        · intro a' b' ha hb hb0
          rw [Option.some.injEq] at ha hb
          subst ha; subst hb
          rw [if_neg hb0]
          refine ⟨fun h1 h2 => ?_, fun h1 => ?_, fun h1 => ?_⟩
          · rw [max_eq_left h1, min_eq_left h2]
          · rw [max_eq_right h1.le, min_eq_left hmx]
          · rw [max_eq_left (hmx.trans h1.le), min_eq_right h1.le]

/-- C63: a frame is treated column by column with the maximum 2, whatever maximum is given. -/
theorem C63_frame_partial (cols : List (List (Option ℝ))) (cs : List (Option ℝ)) (mx : ℝ) :
    clearskyIndex true cols cs mx = cols.flatMap fun g => clearskyIndex false [g] cs 2 := by
  unfold clearskyIndex
  induction cols with
  | nil => rfl
  | cons g cols ih => simpa using ih

/-- C63 violated: a frame exceeds the maximum the caller gave. -/
theorem C63_violated_frame : clearskyIndex true [[some 1500]] [some 1000] 1 = [[some (3 / 2)]] ∧
    clearskyIndex false [[some 1500]] [some 1000] 1 = [[some 1]] := by
  unfold clearskyIndex pvlibClearsky
  constructor
  · simp; norm_num
  · simp; norm_num

example : ([some 1, none] : List (Option ℝ)).length = ([some 0, some 3] : List (Option ℝ)).length ∧ (0 : ℝ) ≤ 2 := ⟨rfl, by norm_num⟩

end SST.Props.Quantile
