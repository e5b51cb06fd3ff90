import Verif.Proofs.Stats
import Mathlib.Data.List.GetD
import Mathlib.Data.List.Dedup

/-! # Helper lemmas: quantiles and rolling windows -/

namespace SST.Stats
open SST

/-! ## Quantile -/

section quant
variable {q : ℝ} {l : List ℝ}

/-- Sorted values. -/
noncomputable def srt (l : List ℝ) : List ℝ := l.insertionSort (· ≤ ·)

theorem srt_length (l : List ℝ) : (srt l).length = l.length := List.length_insertionSort _ _

theorem srt_mono {l : List ℝ} {i j : ℕ} (hij : i ≤ j) (hj : j < l.length) : (srt l).getD i 0 ≤ (srt l).getD j 0 := by
  have hs : (srt l).Pairwise (· ≤ ·) := List.pairwise_insertionSort _ _
  have hl := srt_length l
  rw [List.getD_eq_getElem _ _ (by omega), List.getD_eq_getElem _ _ (by omega)]
  rcases Nat.lt_or_eq_of_le hij with h | rfl
  · exact List.pairwise_iff_getElem.1 hs i j (by omega) (by omega) h
  · exact le_rfl

theorem srt_mem {l : List ℝ} {i : ℕ} (hi : i < l.length) : (srt l).getD i 0 ∈ l := by
  have hl := srt_length l
  rw [List.getD_eq_getElem _ _ (by omega)]
  exact (List.perm_insertionSort (· ≤ ·) l).mem_iff.1 (List.getElem_mem _)

/-- Linear interpolation of the order statistics at position `p`. -/
noncomputable def interpAt (l : List ℝ) (p : ℝ) : ℝ :=
  (srt l).getD ⌊p⌋.toNat 0 + ((srt l).getD ⌈p⌉.toNat 0 - (srt l).getD ⌊p⌋.toNat 0) * (p - ⌊p⌋)

theorem quantileLin_eq (q : ℝ) (l : List ℝ) : quantileLin q l = if l = [] then none else some (interpAt l (q * ((l.length : ℝ) - 1))) := by
  unfold quantileLin
  have h : l.insertionSort (· ≤ ·) = [] ↔ l = [] := by
    rw [← List.length_eq_zero_iff, List.length_insertionSort, List.length_eq_zero_iff]
  simp only
  by_cases hl : l = []
  · rw [if_pos (h.2 hl), if_pos hl]
  · rw [if_neg (fun h' => hl (h.1 h')), if_neg hl]
    have := srt_length l
    unfold srt at this
    rw [this]
    rfl

theorem idx_bounds {p : ℝ} {n : ℕ} (hn : 0 < n) (h0 : 0 ≤ p) (h1 : p ≤ (n : ℝ) - 1) :
    ⌊p⌋.toNat < n ∧ ⌈p⌉.toNat < n ∧ ⌊p⌋.toNat ≤ ⌈p⌉.toNat := by
  have hc : ⌈p⌉ ≤ (n : ℤ) - 1 := Int.ceil_le.2 (by push_cast; exact h1)
  have hfc : ⌊p⌋ ≤ ⌈p⌉ := Int.floor_le_ceil p
  have hf : 0 ≤ ⌊p⌋ := Int.floor_nonneg.2 h0
  omega

theorem interp_between {p : ℝ} (hl : l ≠ []) (h0 : 0 ≤ p) (h1 : p ≤ (l.length : ℝ) - 1) :
    (srt l).getD ⌊p⌋.toNat 0 ≤ interpAt l p ∧ interpAt l p ≤ (srt l).getD ⌈p⌉.toNat 0 := by
  obtain ⟨hf, hc, hfc⟩ := idx_bounds (List.length_pos_iff.2 hl) h0 h1
  have hm := srt_mono (l := l) hfc hc
  have hx0 : 0 ≤ p - ⌊p⌋ := by have := Int.floor_le p; linarith
  have hx1 : p - ⌊p⌋ ≤ 1 := by have := Int.lt_floor_add_one p; linarith
  unfold interpAt
  constructor
  · nlinarith
  · nlinarith

theorem interp_mono {p p' : ℝ} (hl : l ≠ []) (h0 : 0 ≤ p) (hpp : p ≤ p') (h1 : p' ≤ (l.length : ℝ) - 1) : interpAt l p ≤ interpAt l p' := by
  have hn := List.length_pos_iff.2 hl
  obtain ⟨hf, hc, hfc⟩ := idx_bounds hn h0 (hpp.trans h1)
  obtain ⟨hf', hc', hfc'⟩ := idx_bounds hn (h0.trans hpp) h1
  have hff : ⌊p⌋ ≤ ⌊p'⌋ := Int.floor_le_floor hpp
  have hf0 : 0 ≤ ⌊p⌋ := Int.floor_nonneg.2 h0
  rcases eq_or_lt_of_le hff with he | hlt
  · -- same order statistics
    have hm := srt_mono (l := l) hfc' hc'
    by_cases hi : p = ⌊p⌋
    · have hp : interpAt l p = (srt l).getD ⌊p'⌋.toNat 0 := by
        unfold interpAt
        rw [show p - (⌊p⌋ : ℝ) = 0 by linarith, mul_zero, add_zero, he]
      rw [hp]
      exact (interp_between hl (h0.trans hpp) h1).1
    · have hlt : (⌊p⌋ : ℝ) < p := lt_of_le_of_ne (Int.floor_le p) (fun h => hi h.symm)
      have hcc : ⌈p⌉ = ⌈p'⌉ := by
        have a1 : ⌈p⌉ = ⌊p⌋ + 1 := by
          rw [Int.ceil_eq_iff]; push_cast
          exact ⟨by linarith, (Int.lt_floor_add_one p).le⟩
        have a2 : ⌈p'⌉ = ⌊p'⌋ + 1 := by
          rw [Int.ceil_eq_iff]; push_cast
          rw [← he]
          refine ⟨by linarith, ?_⟩
          have := (Int.lt_floor_add_one p').le
          rw [← he] at this; exact this
        rw [a1, a2, he]
      unfold interpAt
      rw [hcc, he]
      have hf'' := Int.floor_le p'
      nlinarith
  · -- separated by an order statistic
    have hce : ⌈p⌉ ≤ ⌊p'⌋ := by
      have : ⌈p⌉ ≤ ⌊p⌋ + 1 := Int.ceil_le_floor_add_one p
      omega
    have hm := srt_mono (l := l) (i := ⌈p⌉.toNat) (j := ⌊p'⌋.toNat) (by omega) hf'
    exact ((interp_between hl h0 (hpp.trans h1)).2.trans hm).trans (interp_between hl (h0.trans hpp) h1).1

end quant

/-! ## Windows -/

theorem lookup_of_unique {β : Type} {l : List (ℤ × β)} {x : ℤ} {v : β} (h1 : (x, v) ∈ l) (h2 : ∀ w, (x, w) ∈ l → w = v) : l.lookup x = some v := by
  induction l with
  | nil => simp at h1
  | cons p l ih =>
    rcases p with ⟨k, w⟩
    rw [List.lookup_cons]
    by_cases hk : x = k
    · subst hk
      simp only [beq_self_eq_true]
      rw [h2 w (by simp)]
    · have : (x == k) = false := by simpa using hk
      simp only [this]
      rcases List.mem_cons.1 h1 with h | h
      · exact absurd (congrArg Prod.fst h) hk
      · exact ih h (fun w hw => h2 w (List.mem_cons_of_mem _ hw))

theorem lookup_none {β : Type} {l : List (ℤ × β)} {x : ℤ} (h : ∀ w, (x, w) ∉ l) : l.lookup x = none := by
  induction l with
  | nil => rfl
  | cons p l ih =>
    rcases p with ⟨k, w⟩
    rw [List.lookup_cons]
    have hk : x ≠ k := by rintro rfl; exact h w (by simp)
    have : (x == k) = false := by simpa using hk
    simp only [this]
    exact ih fun w hw => h w (List.mem_cons_of_mem _ hw)

theorem mem_takeWhile_sorted {l : List ℤ} (hs : l.Pairwise (· ≤ ·)) (p : ℤ → Bool) (hp : ∀ a b, a ≤ b → p b = true → p a = true) (d : ℤ) :
    d ∈ l.takeWhile p ↔ d ∈ l ∧ p d = true := by
  induction l with
  | nil => simp
  | cons a l ih =>
    rw [List.pairwise_cons] at hs
    rw [List.takeWhile_cons]
    by_cases ha : p a = true
    · rw [if_pos ha, List.mem_cons, List.mem_cons, ih hs.2]
      constructor
      · rintro (rfl | h)
        · exact ⟨Or.inl rfl, ha⟩
        · exact ⟨Or.inr h.1, h.2⟩
      · rintro ⟨rfl | h, hd⟩
        · exact Or.inl rfl
        · exact Or.inr ⟨h, hd⟩
    · rw [if_neg ha]
      simp only [List.not_mem_nil, false_iff, not_and]
      intro hd hpd
      rcases List.mem_cons.1 hd with rfl | h
      · exact ha hpd
      · exact ha (hp a d (hs.1 d h) hpd)

theorem le_getLastD {l : List ℤ} (hs : l.Pairwise (· ≤ ·)) {d : ℤ} (hd : d ∈ l) : d ≤ l.getLastD 0 := by
  have hne : l ≠ [] := by rintro rfl; simp at hd
  rw [List.getLastD_eq_getLast?, List.getLast?_eq_some_getLast hne, Option.getD_some]
  obtain ⟨i, hi, rfl⟩ := List.mem_iff_getElem.1 hd
  rw [List.getLast_eq_getElem]
  rcases Nat.lt_or_eq_of_le (Nat.le_sub_one_of_lt hi) with h | h
  · exact List.pairwise_iff_getElem.1 hs i (l.length - 1) hi (by omega) h
  · simp [h]

theorem mem_startDays {α : Type} {ts : List (ℤ × α)} (hs : (ts.map Prod.fst).Pairwise (· < ·)) (n d : ℤ) :
    d ∈ startDays n ts ↔ d ∈ ts.map (fun p => p.1 / day) ∧ d + n ≤ (ts.map fun p => p.1 / day).getLastD 0 := by
  unfold startDays
  simp only
  have hsd : (ts.map fun p => p.1 / day).Pairwise (· ≤ ·) := by
    rw [List.pairwise_map] at hs ⊢
    apply hs.imp
    intro a b hab
    exact Int.ediv_le_ediv (by decide) hab.le
  rw [mem_takeWhile_sorted (hsd.sublist (List.dedup_sublist _)), List.mem_dedup, decide_eq_true_eq]
  intro a b hab hb
  rw [decide_eq_true_eq] at hb ⊢
  omega

/-- The values of the window that ends with the day of `x`, at the time of day of `x`: stamps from `n` days before up to and
including midnight of that day. -/
def windowVals (n : ℤ) (ts : List (ℤ × Option ℝ)) (x : ℤ) : List ℝ :=
  ts.filterMap fun p => if (x / day - n) * day ≤ p.1 ∧ p.1 ≤ (x / day) * day ∧ p.1 % day = x % day then p.2 else none

theorem window_vals (n : ℤ) (ts : List (ℤ × Option ℝ)) (x : ℤ) :
    (((windowOf n (x / day - n) ts).filter fun p => p.1 % day = x % day).filterMap fun p => p.2) = windowVals n ts x := by
  unfold windowOf windowVals
  rw [List.filter_filter, List.filterMap_filter]
  apply List.filterMap_congr
  intro p _
  rw [Int.sub_add_cancel]
  simp only [Bool.and_eq_true, decide_eq_true_eq]
  by_cases h : p.1 % day = x % day
  · simp [h]
  · simp [h]

theorem rows_lookup {ts : List (ℤ × Option ℝ)} (hs : (ts.map Prod.fst).Pairwise (· < ·)) {n : ℤ} (q : ℝ) {x : ℤ}
    (hx : x ∈ ts.map Prod.fst) :
    ((((startDays n ts).flatMap fun d => windowRows q n d ts).lookup x).getD none) =
      if (x / day - n) ∈ ts.map (fun p => p.1 / day) then quantileLin q (windowVals n ts x) else none := by
  have hsd : (ts.map fun p => p.1 / day).Pairwise (· ≤ ·) := by
    have := hs
    rw [List.pairwise_map] at this ⊢
    apply this.imp
    intro a b hab
    exact Int.ediv_le_ediv (by decide) hab.le
  have hxl : x / day ≤ (ts.map fun p => p.1 / day).getLastD 0 := by
    apply le_getLastD hsd
    obtain ⟨p, hp, rfl⟩ := List.mem_map.1 hx
    exact List.mem_map.2 ⟨p, hp, rfl⟩
  have hday : (0 : ℤ) < day := by decide
  have hkey : ∀ w, (x, w) ∈ ((startDays n ts).flatMap fun d => windowRows q n d ts) →
      (x / day - n) ∈ startDays n ts ∧ x % day ∈ ((windowOf n (x / day - n) ts).map fun p => p.1 % day) ∧ w = quantileLin q (windowVals n ts x) := by
    intro w hw
    rw [List.mem_flatMap] at hw
    obtain ⟨d, hd, hw⟩ := hw
    unfold windowRows at hw
    rw [List.mem_map] at hw
    obtain ⟨tod, htod, he⟩ := hw
    rw [List.mem_dedup] at htod
    obtain ⟨p, hp, rfl⟩ := List.mem_map.1 htod
    have h1 := congrArg Prod.fst he
    have h2 := congrArg Prod.snd he
    simp only at h1 h2
    have hm0 := Int.emod_nonneg p.1 hday.ne'
    have hm1 := Int.emod_lt_of_pos p.1 hday
    have hdx : x / day = d + n := by
      rw [← h1, Int.mul_comm, Int.mul_add_ediv_left _ _ hday.ne', Int.ediv_eq_zero_of_lt hm0 hm1, Int.add_zero]
    have hmx : x % day = p.1 % day := by
      rw [← h1, Int.mul_comm, Int.mul_add_emod_self_left, Int.emod_emod_of_dvd _ (dvd_refl _)]
    have hd' : x / day - n = d := by omega
    rw [hd']
    refine ⟨hd, by rw [hmx]; exact htod, ?_⟩
    rw [← h2, ← window_vals, hd', hmx]
  by_cases hin : (x / day - n) ∈ ts.map (fun p => p.1 / day)
  · rw [if_pos hin]
    have hst : (x / day - n) ∈ startDays n ts := (mem_startDays hs n _).2 ⟨hin, by omega⟩
    by_cases htod : x % day ∈ ((windowOf n (x / day - n) ts).map fun p => p.1 % day)
    · have hmem : (x, quantileLin q (windowVals n ts x)) ∈ ((startDays n ts).flatMap fun d => windowRows q n d ts) := by
        rw [List.mem_flatMap]
        refine ⟨_, hst, ?_⟩
        unfold windowRows
        rw [List.mem_map]
        refine ⟨x % day, List.mem_dedup.2 htod, ?_⟩
        rw [window_vals, Int.sub_add_cancel]
        congr 1
        have := Int.mul_ediv_add_emod x day
        rw [Int.mul_comm]; exact this
      rw [lookup_of_unique hmem fun w hw => (hkey w hw).2.2]
      rfl
    · rw [lookup_none fun w hw => htod (hkey w hw).2.1]
      have : windowVals n ts x = [] := by
        rw [← window_vals]
        have : ((windowOf n (x / day - n) ts).filter fun p => p.1 % day = x % day) = [] := by
          rw [List.filter_eq_nil_iff]
          intro p hp h
          exact htod (List.mem_map.2 ⟨p, hp, by simpa using h⟩)
        rw [this]; rfl
      rw [this, quantileLin_eq]
      rfl
  · rw [if_neg hin, lookup_none fun w hw => hin ((mem_startDays hs n _).1 (hkey w hw).1).1]
    rfl

end SST.Stats
