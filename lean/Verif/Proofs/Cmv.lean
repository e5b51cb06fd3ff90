import Verif.Spec.Cmv
import Verif.Proofs.Spatial
import Verif.Proofs.Remap

namespace SST
open SST.Cmv SST.Spec SST.Spatial

/-! ## Pairs -/

theorem combosRepl_map {α β : Type} (f : α → β) (l : List α) :
    combosRepl (l.map f) = (combosRepl l).map fun p => (f p.1, f p.2) := by
  induction l with
  | nil => rfl
  | cons x xs ih => simp [combosRepl, ih, Function.comp_def]

theorem combos_map {α β : Type} (f : α → β) (l : List α) :
    combos (l.map f) = (combos l).map fun p => (f p.1, f p.2) := by
  induction l with
  | nil => rfl
  | cons x xs ih => simp [combos, ih, Function.comp_def]

theorem mem_combosRepl_sorted {l : List ℕ} (h : l.Pairwise (· < ·)) (i j : ℕ) :
    (i, j) ∈ combosRepl l ↔ i ∈ l ∧ j ∈ l ∧ i ≤ j := by
  induction l with
  | nil => simp [combosRepl]
  | cons x xs ih =>
    rw [List.pairwise_cons] at h
    have hx := h.1
    simp only [combosRepl, List.mem_append, List.mem_map, Prod.mk.injEq, List.mem_cons, ih h.2]
    constructor
    · rintro (⟨y, hy, rfl, rfl⟩ | ⟨h1, h2, h3⟩)
      · refine ⟨Or.inl rfl, hy, ?_⟩
        rcases hy with rfl | hy
        · exact le_rfl
        · exact (hx _ hy).le
      · exact ⟨Or.inr h1, Or.inr h2, h3⟩
    · rintro ⟨rfl | h1, h2, h3⟩
      · exact Or.inl ⟨j, h2, rfl, rfl⟩
      · rcases h2 with rfl | h2
        · have := hx _ h1; omega
        · exact Or.inr ⟨h1, h2, h3⟩

theorem mem_combos_sorted {l : List ℕ} (h : l.Pairwise (· < ·)) (i j : ℕ) :
    (i, j) ∈ combos l ↔ i ∈ l ∧ j ∈ l ∧ i < j := by
  induction l with
  | nil => simp [combos]
  | cons x xs ih =>
    rw [List.pairwise_cons] at h
    have hx := h.1
    simp only [combos, List.mem_append, List.mem_map, Prod.mk.injEq, List.mem_cons, ih h.2]
    constructor
    · rintro (⟨y, hy, rfl, rfl⟩ | ⟨h1, h2, h3⟩)
      · exact ⟨Or.inl rfl, Or.inr hy, hx _ hy⟩
      · exact ⟨Or.inr h1, Or.inr h2, h3⟩
    · rintro ⟨rfl | h1, h2, h3⟩
      · rcases h2 with rfl | h2
        · omega
        · exact Or.inl ⟨j, h2, rfl, rfl⟩
      · rcases h2 with rfl | h2
        · have := hx _ h1; omega
        · exact Or.inr ⟨h1, h2, h3⟩

theorem combosRepl_lex {l : List ℕ} (h : l.Pairwise (· < ·)) : (combosRepl l).Pairwise LexLt := by
  induction l with
  | nil => simp [combosRepl]
  | cons x xs ih =>
    have h' := h
    rw [List.pairwise_cons] at h
    rw [combosRepl, List.pairwise_append]
    refine ⟨?_, ih h.2, ?_⟩
    · rw [List.pairwise_map]
      exact h'.imp fun {a b} hab => Or.inr ⟨rfl, hab⟩
    · rintro ⟨a, b⟩ hab ⟨c, d⟩ hcd
      obtain ⟨y, _, hy⟩ := List.mem_map.1 hab
      obtain ⟨rfl, rfl⟩ := Prod.mk.injEq .. ▸ hy
      exact Or.inl (h.1 _ ((mem_combosRepl_sorted h.2 c d).1 hcd).1)

theorem combos_lex {l : List ℕ} (h : l.Pairwise (· < ·)) : (combos l).Pairwise LexLt := by
  induction l with
  | nil => simp [combos]
  | cons x xs ih =>
    rw [List.pairwise_cons] at h
    rw [combos, List.pairwise_append]
    refine ⟨?_, ih h.2, ?_⟩
    · rw [List.pairwise_map]
      exact h.2.imp fun {a b} hab => Or.inr ⟨rfl, hab⟩
    · rintro ⟨a, b⟩ hab ⟨c, d⟩ hcd
      obtain ⟨y, _, hy⟩ := List.mem_map.1 hab
      obtain ⟨rfl, rfl⟩ := Prod.mk.injEq .. ▸ hy
      exact Or.inl (h.1 _ ((mem_combos_sorted h.2 c d).1 hcd).1)

theorem map_some_range {α : Type} (l : List α) : l.map some = (List.range l.length).map fun i => l[i]? := by
  apply List.ext_getElem (by simp)
  intro i h1 h2
  simp at h1
  simp [h1]

theorem length_combosRepl {α : Type} (l : List α) : 2 * (combosRepl l).length = l.length * (l.length + 1) := by
  induction l with
  | nil => rfl
  | cons x xs ih =>
    simp only [combosRepl, List.length_append, List.length_map, List.length_cons, mul_add, ih]
    ring

theorem length_combos {α : Type} (l : List α) : 2 * (combos l).length = l.length * (l.length - 1) := by
  induction l with
  | nil => rfl
  | cons x xs ih =>
    simp only [combos, List.length_append, List.length_map, List.length_cons, mul_add, ih]
    rcases xs.length with _ | n
    · rfl
    · simp only [Nat.add_sub_cancel]; ring

theorem mem_combosRepl_mem {α : Type} {l : List α} {p : α × α} (h : p ∈ combosRepl l) : p.1 ∈ l ∧ p.2 ∈ l := by
  induction l with
  | nil => simp [combosRepl] at h
  | cons x xs ih =>
    simp only [combosRepl, List.mem_append, List.mem_map] at h
    rcases h with ⟨y, hy, rfl⟩ | h
    · exact ⟨by simp, hy⟩
    · exact ⟨List.mem_cons_of_mem _ (ih h).1, List.mem_cons_of_mem _ (ih h).2⟩

/-! ## QC conditions -/

theorem mem_valid {s : List (Option ℝ)} {x : ℝ} : x ∈ valid s ↔ some x ∈ s := by
  simp [valid, List.mem_filterMap]

theorem valid_ne_nil {s : List (Option ℝ)} : valid s ≠ [] ↔ ∃ x, some x ∈ s := by
  rw [← List.length_pos_iff, List.length_pos_iff_exists_mem]
  simp [mem_valid]

theorem nanmax_eq {s : List (Option ℝ)} {m : ℝ} : nanmax s = some m ↔ IsMaxOf m s := by
  unfold nanmax IsMaxOf
  rw [List.max?_eq_some_iff]
  simp [mem_valid]

theorem nanmax_none {s : List (Option ℝ)} : nanmax s = none ↔ valid s = [] := by
  simp [nanmax]

theorem nanmean_eq {s : List (Option ℝ)} (h : valid s ≠ []) : nanmean s = some (avgOf s) := by
  unfold nanmean meanO
  rw [if_neg h]; rfl

theorem ltO_nanstd {s : List (Option ℝ)} {c : ℝ} : ltO (nanstd s) c ↔ StdBelow s c := by
  unfold ltO StdBelow nanstd nanvar
  by_cases h : valid s = []
  · simp only [h, if_true, Option.map_none]
    constructor
    · rintro ⟨v, hv, _⟩; cases hv
    · rintro ⟨h', _⟩; exact absurd h (valid_ne_nil.2 h')
  · simp only [h, if_false, Option.map_some, Option.some.injEq, exists_eq_left', variance, mean, avgOf]
    rw [← valid_ne_nil]
    rw [List.length_map]
    exact ⟨fun hh => ⟨h, hh⟩, fun hh => hh.2⟩

theorem ltO_nanmax {s : List (Option ℝ)} {c : ℝ} : ltO (nanmax s) c ↔ MaxBelow s c := by
  unfold ltO MaxBelow
  simp only [nanmax_eq]

theorem avg_le_max {s : List (Option ℝ)} {m : ℝ} (h : IsMaxOf m s) : avgOf s ≤ m := by
  have hne : valid s ≠ [] := valid_ne_nil.2 ⟨m, h.1⟩
  have hpos : (0 : ℝ) < (valid s).length := by
    exact_mod_cast List.length_pos_iff.2 hne
  show (valid s).sum / (valid s).length ≤ m
  rw [div_le_iff₀ hpos]
  have := List.sum_le_card_nsmul (valid s) m (fun x hx => h.2 x (mem_valid.1 hx))
  simpa [mul_comm] using this

theorem varRatio_lt {s : List (Option ℝ)} {c : ℝ} : XR.lt (varRatio s) (.fin c) ↔ LowVariation s c := by
  unfold varRatio LowVariation
  cases hm : nanmax s with
  | none =>
    have hv := nanmax_none.1 hm
    simp only [nanmean, meanO, hv, if_true]
    constructor
    · intro h; simp [XR.divO, XR.oneSub, XR.lt] at h
    · rintro ⟨m, h, _⟩
      rw [← nanmax_eq, hm] at h; cases h
  | some m =>
    have hM := nanmax_eq.1 hm
    have hne : valid s ≠ [] := valid_ne_nil.2 ⟨m, hM.1⟩
    have huniq : ∀ m', IsMaxOf m' s → m' = m := by
      intro m' h'
      rw [← nanmax_eq, hm] at h'; exact (Option.some.inj h').symm
    rw [nanmean_eq hne]
    simp only [XR.divO, XR.div]
    by_cases h0 : m = 0
    · simp only [h0, if_true]
      have hle := avg_le_max hM
      have : ¬ 0 < avgOf s := by rw [h0] at hle; exact not_lt.2 hle
      constructor
      · intro h
        split_ifs at h
        · simp [XR.oneSub, XR.lt] at h
        · simp [XR.oneSub, XR.lt] at h
      · rintro ⟨m', h1, h2, _⟩
        exact absurd (huniq m' h1 ▸ h0) h2
    · simp only [h0, if_false, XR.oneSub, XR.lt]
      constructor
      · intro h; exact ⟨m, hM, h0, h⟩
      · rintro ⟨m', h1, h2, h3⟩
        rw [huniq m' h1] at h3; exact h3

theorem lowcorr_iff {peak mc : Option ℝ} {c : ℝ} :
    (ltO peak c ∨ XR.lt (XR.oneSub (XR.divO mc peak)) (.fin c)) ↔ LowCorrelation peak mc c := by
  unfold ltO LowCorrelation
  cases peak with
  | none => cases mc <;> simp [XR.divO, XR.oneSub, XR.lt]
  | some k =>
    cases mc with
    | none => simp [XR.divO, XR.oneSub, XR.lt]
    | some m =>
      simp only [XR.divO, XR.div, Option.some.injEq, exists_eq_left']
      by_cases h0 : k = 0
      · simp only [h0, if_true, ne_eq, not_true, false_and, false_or, true_and]
        by_cases hm : m = 0
        · simp [hm, XR.oneSub, XR.lt]
        · by_cases hm' : 0 < m
          · simp [hm, hm', XR.oneSub, XR.lt]
          · simp [hm, hm', XR.oneSub, XR.lt]
      · simp [h0, XR.oneSub, XR.lt]

theorem velocity_iff {d : ℝ} (hd : 0 ≤ d) {t : Option ℝ} {lo hi : ℝ} :
    (XR.lt (.fin lo) (XR.divO (some d) t).abs ∧ XR.lt (XR.divO (some d) t).abs (.fin hi)) ↔
      VelocityInside d t lo hi := by
  unfold VelocityInside
  cases t with
  | none => simp [XR.divO, XR.abs, XR.lt]
  | some t =>
    simp only [XR.divO, XR.div, Option.some.injEq, exists_eq_left']
    by_cases h0 : t = 0
    · simp only [h0, if_true]
      split_ifs <;> simp [XR.abs, XR.lt]
    · simp [h0, XR.abs, XR.lt, abs_div, abs_of_nonneg hd]

theorem lastFailing_snoc {l : List (Flag × Prop)} {f g : Flag} {P : Prop} [Decidable P]
    (h : IsLastFailing l f) : IsLastFailing (l ++ [(g, P)]) (if P then g else f) := by
  split_ifs with hP
  · exact Or.inr ⟨l, (g, P), [], rfl, hP, rfl, by simp⟩
  · rcases h with ⟨rfl, h⟩ | ⟨l1, c, l2, rfl, hc, hcf, hl⟩
    · refine Or.inl ⟨rfl, ?_⟩
      intro c hc
      rcases List.mem_append.1 hc with hc | hc
      · exact h c hc
      · rw [List.mem_singleton.1 hc]; exact hP
    · refine Or.inr ⟨l1, c, l2 ++ [(g, P)], by simp, hc, hcf, ?_⟩
      intro d hd
      rcases List.mem_append.1 hd with hd | hd
      · exact hl d hd
      · rw [List.mem_singleton.1 hd]; exact hP

theorem pairFlag_last {ι : Type} [DecidableEq ι] (method : String) (o : Dict) (p : PairStat ι) :
    IsLastFailing (checks method o p) (pairFlag method o p) := by
  classical
  have base : IsLastFailing
      [(.same, p.a = p.b),
       (.nosignal, StdBelow p.sigA 0.001 ∨ StdBelow p.sigB 0.001),
       (.nolag, p.delay = some 0),
       (.lowcorr, p.peak = none ∨ p.meanCorr = none),
       (.overcast, MaxBelow p.sigA (opt o "ktlim") ∨ MaxBelow p.sigB (opt o "ktlim"))]
      (if MaxBelow p.sigA (opt o "ktlim") ∨ MaxBelow p.sigB (opt o "ktlim") then .overcast else
        if p.peak = none ∨ p.meanCorr = none then .lowcorr else
        if p.delay = some 0 then .nolag else
        if StdBelow p.sigA 0.001 ∨ StdBelow p.sigB 0.001 then .nosignal else
        if p.a = p.b then .same else .good) := by
    have h0 : IsLastFailing [] Flag.good := Or.inl ⟨rfl, by simp⟩
    exact lastFailing_snoc (lastFailing_snoc (lastFailing_snoc (lastFailing_snoc (lastFailing_snoc h0))))
  have hb : pairFlag "gagne" o p =
      (if MaxBelow p.sigA (opt o "ktlim") ∨ MaxBelow p.sigB (opt o "ktlim") then .overcast else
        if p.peak = none ∨ p.meanCorr = none then .lowcorr else
        if p.delay = some 0 then .nolag else
        if StdBelow p.sigA 0.001 ∨ StdBelow p.sigB 0.001 then .nosignal else
        if p.a = p.b then .same else .good) := by
    simp only [pairFlag, ltO_nanstd, ltO_nanmax]
    rw [if_neg (by decide)]
    by_cases h1 : p.peak = none <;> by_cases h2 : p.meanCorr = none <;> simp [h1, h2, optVal, opt]
  by_cases hm : method = "jamaly"
  · subst hm
    have hj : pairFlag "jamaly" o p =
        (if ¬ VelocityInside (magnitude p.vec) p.delay (opt o "minvelocity") (opt o "maxvelocity") then .vellimit else
          if LowCorrelation p.peak p.meanCorr (opt o "mincorr") then .lowcorr else
          if LowVariation p.sigA (opt o "var_s_lim") ∨ LowVariation p.sigB (opt o "var_s_lim") then .lowvarS else
          pairFlag "gagne" o p) := by
      simp only [pairFlag, varRatio_lt, lowcorr_iff, velocity_iff (magnitude_nonneg p.vec)]
      simp only [optVal, opt]
      by_cases hV : VelocityInside (magnitude p.vec) p.delay ((dictGet? o "minvelocity").getD 0)
        ((dictGet? o "maxvelocity").getD 0) <;>
      by_cases hL : LowCorrelation p.peak p.meanCorr ((dictGet? o "mincorr").getD 0) <;>
      by_cases hW : LowVariation p.sigA ((dictGet? o "var_s_lim").getD 0) ∨
            LowVariation p.sigB ((dictGet? o "var_s_lim").getD 0) <;>
      simp [hV, hL, hW]
    rw [hj, hb]
    have := lastFailing_snoc (g := .vellimit)
      (P := ¬ VelocityInside (magnitude p.vec) p.delay (opt o "minvelocity") (opt o "maxvelocity"))
      (lastFailing_snoc (g := .lowcorr) (P := LowCorrelation p.peak p.meanCorr (opt o "mincorr"))
      (lastFailing_snoc (g := .lowvarS)
        (P := LowVariation p.sigA (opt o "var_s_lim") ∨ LowVariation p.sigB (opt o "var_s_lim")) base))
    simpa [checks] using this
  · have hg : pairFlag method o p = pairFlag "gagne" o p := by
      simp only [pairFlag, hm, if_false]
      rw [if_neg (by decide : ¬ "gagne" = "jamaly")]
    rw [hg, hb]
    simpa [checks, hm] using base

/-! ## Options -/

theorem fill_keys (dfl : Dict) (o : Dict) (k : String) :
    k ∈ (dfl.foldl fillStep o).map Prod.fst ↔ k ∈ o.map Prod.fst ∨ k ∈ dfl.map Prod.fst := by
  induction dfl generalizing o with
  | nil => simp
  | cons kv dfl ih =>
    rw [List.foldl_cons, ih]
    unfold fillStep
    split_ifs with h
    · rw [List.map_cons, List.mem_cons]
      constructor
      · rintro (h1 | h1)
        · exact Or.inl h1
        · exact Or.inr (Or.inr h1)
      · rintro (h1 | rfl | h1)
        · exact Or.inl h1
        · exact Or.inl h
        · exact Or.inr h1
    · simp only [List.map_append, List.map_cons, List.map_nil, List.mem_append, List.mem_singleton, List.mem_cons]
      tauto

theorem dictGet?_none {κ ν : Type*} [DecidableEq κ] (d : List (κ × ν)) (k : κ) :
    dictGet? d k = none ↔ k ∉ d.map Prod.fst := by
  unfold dictGet?
  simp only [Option.map_eq_none_iff, List.find?_eq_none, List.mem_map, not_exists, not_and, decide_eq_true_eq]

theorem fill_get (dfl : Dict) (o : Dict) (k : String) :
    dictGet? (dfl.foldl fillStep o) k = (dictGet? o k).or (dictGet? dfl k) := by
  induction dfl generalizing o with
  | nil => simp [dictGet?]
  | cons kv dfl ih =>
    rw [List.foldl_cons, ih]
    have hcons : dictGet? (kv :: dfl) k = (dictGet? [kv] k).or (dictGet? dfl k) :=
      dictGet?_append [kv] dfl k
    rw [hcons]
    unfold fillStep
    split_ifs with h
    · by_cases hk : kv.1 = k
      · cases hg : dictGet? o k with
        | none => rw [dictGet?_none] at hg; exact absurd (hk ▸ h) hg
        | some v => simp
      · have : dictGet? [kv] k = none := by
          rw [dictGet?_none]; simpa using fun h => hk h.symm
        rw [this]; simp
    · rw [dictGet?_append, Option.or_assoc]

theorem fill_self (dfl : Dict) (o : Dict) (h : ∀ k ∈ dfl.map Prod.fst, k ∈ o.map Prod.fst) :
    dfl.foldl fillStep o = o := by
  induction dfl generalizing o with
  | nil => rfl
  | cons kv dfl ih =>
    rw [List.foldl_cons]
    have h1 : fillStep o kv = o := by
      unfold fillStep; rw [if_pos (h kv.1 (by simp))]
    rw [h1, ih]
    intro k hk; exact h k (by simp at hk ⊢; tauto)

end SST
