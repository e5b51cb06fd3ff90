import Verif.Model.RoundQuantile
import Verif.Props.Quantile
import Verif.Props.RoundPlant
import Verif.Proofs.RoundEven

/-!
# Property C283: quantile summary with rounding

`windowVals n ts x` as for C61.
-/

namespace SST.Round
open SST SST.Stats SST.Props.Quantile

variable {u : ℝ} {A : Arith}

private theorem rowsF_lookup {ts : List (ℤ × Option ℝ)} (hs : (ts.map Prod.fst).Pairwise (· < ·)) {n : ℤ} (q : ℝ) {x : ℤ}
    (hx : x ∈ ts.map Prod.fst) :
    ((((startDays n ts).flatMap fun d => windowRowsF A q n d ts).lookup x).getD none) =
      if (x / day - n) ∈ ts.map (fun p => p.1 / day) then quantileF A q (windowVals n ts x) else none := by
  have hsd : (ts.map fun p => p.1 / day).Pairwise (· ≤ ·) := by
    have := hs
    rw [List.pairwise_map] at this ⊢
    apply this.imp
    intro a b hab
    exact Int.ediv_le_ediv (by decide) hab.le
  have hxl : x / day ≤ (ts.map fun p => p.1 / day).getLastD 0 := by
    apply le_getLastD hsd
    obtain ⟨p, hp, rfl⟩ := List.mem_map.1 hx
    exact List.mem_map.2 ⟨p, hp, rfl⟩
  have hday : (0 : ℤ) < day := by decide
  have hkey : ∀ w, (x, w) ∈ ((startDays n ts).flatMap fun d => windowRowsF A q n d ts) →
      (x / day - n) ∈ startDays n ts ∧ x % day ∈ ((windowOf n (x / day - n) ts).map fun p => p.1 % day) ∧ w = quantileF A q (windowVals n ts x) := by
    intro w hw
    rw [List.mem_flatMap] at hw
    obtain ⟨d, hd, hw⟩ := hw
    unfold windowRowsF at hw
    rw [List.mem_map] at hw
    obtain ⟨tod, htod, he⟩ := hw
    rw [List.mem_dedup] at htod
    obtain ⟨p, hp, rfl⟩ := List.mem_map.1 htod
    have h1 := congrArg Prod.fst he
    have h2 := congrArg Prod.snd he
    simp only at h1 h2
    have hm0 := Int.emod_nonneg p.1 hday.ne'
    have hm1 := Int.emod_lt_of_pos p.1 hday
    have hdx : x / day = d + n := by
      rw [← h1, Int.mul_comm, Int.mul_add_ediv_left _ _ hday.ne', Int.ediv_eq_zero_of_lt hm0 hm1, Int.add_zero]
    have hmx : x % day = p.1 % day := by
      rw [← h1, Int.mul_comm, Int.mul_add_emod_self_left, Int.emod_emod_of_dvd _ (dvd_refl _)]
    have hd' : x / day - n = d := by omega
    rw [hd']
    refine ⟨hd, by rw [hmx]; exact htod, ?_⟩
    rw [← h2, ← window_vals, hd', hmx]
  by_cases hin : (x / day - n) ∈ ts.map (fun p => p.1 / day)
  · rw [if_pos hin]
    have hst : (x / day - n) ∈ startDays n ts := (mem_startDays hs n _).2 ⟨hin, by omega⟩
    by_cases htod : x % day ∈ ((windowOf n (x / day - n) ts).map fun p => p.1 % day)
    · have hmem : (x, quantileF A q (windowVals n ts x)) ∈ ((startDays n ts).flatMap fun d => windowRowsF A q n d ts) := by
        rw [List.mem_flatMap]
        refine ⟨_, hst, ?_⟩
        unfold windowRowsF
        rw [List.mem_map]
        refine ⟨x % day, List.mem_dedup.2 htod, ?_⟩
        rw [window_vals, Int.sub_add_cancel]
        congr 1
        have := Int.mul_ediv_add_emod x day
        rw [Int.mul_comm]; exact this
      rw [lookup_of_unique hmem fun w hw => (hkey w hw).2.2]
      rfl
    · rw [lookup_none fun w hw => htod (hkey w hw).2.1]
      have : windowVals n ts x = [] := by
        rw [← window_vals]
        have : ((windowOf n (x / day - n) ts).filter fun p => p.1 % day = x % day) = [] := by
          rw [List.filter_eq_nil_iff]
          intro p hp h
          exact htod (List.mem_map.2 ⟨p, hp, by simpa using h⟩)
        rw [this]; rfl
      rw [this]
      simp [quantileF, quantileAtF]
  · rw [if_neg hin, lookup_none fun w hw => hin ((mem_startDays hs n _).1 (hkey w hw).1).1]
    rfl

/-- Values, stamps and name as for C61. -/
private theorem valueF (isFrame : Bool) (name : ColName) (nm : String) (hnm : nameOk isFrame name nm) (ts : List (ℤ × Option ℝ)) (hne : ts ≠ []) (hs : Increasing ts)
    (n : ℤ) (q : ℝ) :
    calcQuantileF A isFrame name ts n q = .ok (nm, ts.map fun p =>
      (p.1, if p.1 / day - n ∈ ts.map (fun p => p.1 / day) then quantileF A q (windowVals n ts p.1) else none)) := by
  unfold calcQuantileF
  rw [if_neg hne, quantName_ok.2 hnm]
  simp only [Except.map]
  congr 2
  apply List.map_congr_left
  intro p hp
  rw [rowsF_lookup hs q (List.mem_map.2 ⟨p, hp, rfl⟩)]

private theorem zeroQ (hk : KeepsIntegers A.fl) : A.fl 0 = 0 := by have := hk.int 0 (by norm_num); simpa using this

private theorem oneQ (hk : KeepsIntegers A.fl) : A.fl 1 = 1 := by have := hk.int 1 (by norm_num); simpa using this

private theorem levelF_range (hk : KeepsIntegers A.fl) {q : ℝ} (h0 : 0 ≤ q) (h1 : q ≤ 1) : 0 ≤ levelF A q ∧ levelF A q ≤ 1 := by
  have hd : A.fl 100 = 100 := by have := hk.int 100 (by norm_num); simpa using this
  have a0 : 0 ≤ A.fl (q * 100) := by have := hk.mono (show (0 : ℝ) ≤ q * 100 by positivity); rwa [zeroQ hk] at this
  have a1 : A.fl (q * 100) ≤ 100 := by have := hk.mono (show q * 100 ≤ (100 : ℝ) by linarith); rwa [hd] at this
  unfold levelF
  constructor
  · have := hk.mono (show (0 : ℝ) ≤ A.fl (q * 100) / 100 by positivity); rwa [zeroQ hk] at this
  · have := hk.mono (show A.fl (q * 100) / 100 ≤ (1 : ℝ) by linarith); rwa [oneQ hk] at this

/-- Where the position of a list of `m` values lies. -/
private theorem pos_rangeL (hk : KeepsIntegers A.fl) {lev : ℝ} (l0 : 0 ≤ lev) (l1 : lev ≤ 1) {m : ℕ} (hm : 0 < m) (hb : m ≤ 2 ^ 53) :
    0 ≤ A.fl (((m : ℝ) - 1) * lev) ∧ A.fl (((m : ℝ) - 1) * lev) ≤ (m : ℝ) - 1 := by
  have m1 : (1 : ℝ) ≤ m := by exact_mod_cast hm
  have hi : A.fl ((m : ℝ) - 1) = (m : ℝ) - 1 := by
    have := hk.int ((m : ℤ) - 1) (by rw [abs_of_nonneg (by omega)]; omega)
    push_cast at this
    exact this
  constructor
  · have := hk.mono (show (0 : ℝ) ≤ ((m : ℝ) - 1) * lev from mul_nonneg (by linarith) l0); rwa [zeroQ hk] at this
  · have := hk.mono (show ((m : ℝ) - 1) * lev ≤ (m : ℝ) - 1 by nlinarith); rwa [hi] at this

private theorem pos_range (hk : KeepsIntegers A.fl) {q : ℝ} (h0 : 0 ≤ q) (h1 : q ≤ 1) {m : ℕ} (hm : 0 < m) (hb : m ≤ 2 ^ 53) :
    0 ≤ A.fl (((m : ℝ) - 1) * levelF A q) ∧ A.fl (((m : ℝ) - 1) * levelF A q) ≤ (m : ℝ) - 1 :=
  pos_rangeL hk (levelF_range hk h0 h1).1 (levelF_range hk h0 h1).2 hm hb

private theorem frac_range (hk : KeepsIntegers A.fl) (p : ℝ) : 0 ≤ A.fl (p - ⌊p⌋) ∧ A.fl (p - ⌊p⌋) ≤ 1 := by
  have f0 := Int.floor_le p
  have f1 := Int.lt_floor_add_one p
  constructor
  · have := hk.mono (show (0 : ℝ) ≤ p - ⌊p⌋ by linarith); rwa [zeroQ hk] at this
  · have := hk.mono (show p - ⌊p⌋ ≤ (1 : ℝ) by linarith); rwa [oneQ hk] at this

private theorem flQ_le (hr : RoundsTo u A.fl) (hu : u ≤ 1 / 8) {x y : ℝ} (x0 : 0 ≤ x) (h : x ≤ y) : A.fl x ≤ 9 / 8 * y := by
  have := (abs_le.1 (hr x)).2
  rw [abs_of_nonneg x0] at this
  nlinarith

/-- The interpolation stays between its ends. -/
private theorem lerpF_range (hk : KeepsIntegers A.fl) (hr : RoundsTo u A.fl) (hu : u ≤ 1 / 8) {a b t : ℝ} (hab : a ≤ b) (ha : A.fl a = a) (hb : A.fl b = b)
    (t0 : 0 ≤ t) (t1 : t ≤ 1) : a ≤ lerpF A a b t ∧ lerpF A a b t ≤ b := by
  have z := zeroQ hk
  have d0 : 0 ≤ A.fl (b - a) := by have := hk.mono (sub_nonneg.2 hab); rwa [z] at this
  have d1 : A.fl (b - a) ≤ 9 / 8 * (b - a) := flQ_le hr hu (sub_nonneg.2 hab) le_rfl
  unfold lerpF
  split_ifs with h
  · have p0 : 0 ≤ A.fl (A.fl (b - a) * t) := by have := hk.mono (mul_nonneg d0 t0); rwa [z] at this
    have p1 : A.fl (A.fl (b - a) * t) ≤ 9 / 8 * (9 / 16 * (b - a)) := flQ_le hr hu (mul_nonneg d0 t0) (by nlinarith)
    constructor
    · have := hk.mono (show a ≤ a + A.fl (A.fl (b - a) * t) by linarith); rwa [ha] at this
    · have := hk.mono (show a + A.fl (A.fl (b - a) * t) ≤ b by linarith); rwa [hb] at this
  · rw [not_lt] at h
    have s0 : 0 ≤ A.fl (1 - t) := by have := hk.mono (sub_nonneg.2 t1); rwa [z] at this
    have s1 : A.fl (1 - t) ≤ 9 / 8 * (1 / 2) := flQ_le hr hu (sub_nonneg.2 t1) (by linarith)
    have p0 : 0 ≤ A.fl (A.fl (b - a) * A.fl (1 - t)) := by have := hk.mono (mul_nonneg d0 s0); rwa [z] at this
    have p1 : A.fl (A.fl (b - a) * A.fl (1 - t)) ≤ 9 / 8 * (9 / 8 * (b - a) * (9 / 16)) :=
      flQ_le hr hu (mul_nonneg d0 s0) (mul_le_mul d1 (by linarith) s0 (by linarith))
    constructor
    · have := hk.mono (show a ≤ b - A.fl (A.fl (b - a) * A.fl (1 - t)) by linarith); rwa [ha] at this
    · have := hk.mono (show b - A.fl (A.fl (b - a) * A.fl (1 - t)) ≤ b by linarith); rwa [hb] at this

private theorem idxF {p : ℝ} {m : ℕ} (hm : 0 < m) (h0 : 0 ≤ p) (h1 : p ≤ (m : ℝ) - 1) : ⌊p⌋.toNat < m ∧ ⌊p⌋.toNat ≤ min (⌊p⌋.toNat + 1) (m - 1) ∧ min (⌊p⌋.toNat + 1) (m - 1) < m := by
  have f0 : 0 ≤ ⌊p⌋ := Int.floor_nonneg.2 h0
  have f1 : ⌊p⌋ ≤ (m : ℤ) - 1 := by
    have : ((⌊p⌋ : ℤ) : ℝ) ≤ (m : ℝ) - 1 := (Int.floor_le p).trans h1
    exact_mod_cast this
  omega

private theorem quantileAtF_eq (lev : ℝ) (l : List ℝ) : quantileAtF A lev l = if l = [] then none else
    some (lerpF A ((srt l).getD ⌊A.fl (((l.length : ℝ) - 1) * lev)⌋.toNat 0)
      ((srt l).getD (min (⌊A.fl (((l.length : ℝ) - 1) * lev)⌋.toNat + 1) (l.length - 1)) 0)
      (A.fl (A.fl (((l.length : ℝ) - 1) * lev) - ⌊A.fl (((l.length : ℝ) - 1) * lev)⌋))) := by
  unfold quantileAtF
  have h : l.insertionSort (· ≤ ·) = [] ↔ l = [] := by
    rw [← List.length_eq_zero_iff, List.length_insertionSort, List.length_eq_zero_iff]
  simp only [List.length_insertionSort, srt, h]

private theorem quantileF_eq (q : ℝ) (l : List ℝ) : quantileF A q l = if l = [] then none else
    some (lerpF A ((srt l).getD ⌊A.fl (((l.length : ℝ) - 1) * levelF A q)⌋.toNat 0)
      ((srt l).getD (min (⌊A.fl (((l.length : ℝ) - 1) * levelF A q)⌋.toNat + 1) (l.length - 1)) 0)
      (A.fl (A.fl (((l.length : ℝ) - 1) * levelF A q) - ⌊A.fl (((l.length : ℝ) - 1) * levelF A q)⌋))) := quantileAtF_eq _ _

/-- The quantile at any level from 0 to 1 lies between the order statistics next to its position. -/
theorem quantileAtF_between (hk : KeepsIntegers A.fl) (hr : RoundsTo u A.fl) (hu : u ≤ 1 / 8) {lev : ℝ} (l0 : 0 ≤ lev) (l1 : lev ≤ 1) {l : List ℝ} (hl : l ≠ []) (hb : l.length ≤ 2 ^ 53)
    (hv : ∀ w ∈ l, A.fl w = w) : ∃ i v, i = ⌊A.fl (((l.length : ℝ) - 1) * lev)⌋.toNat ∧ i < l.length ∧ quantileAtF A lev l = some v ∧
      (srt l).getD i 0 ≤ v ∧ v ≤ (srt l).getD (min (i + 1) (l.length - 1)) 0 := by
  have hlp := List.length_pos_iff.2 hl
  obtain ⟨p0, p1⟩ := pos_rangeL hk l0 l1 hlp hb
  obtain ⟨i1, i2, i3⟩ := idxF hlp p0 p1
  obtain ⟨g0, g1⟩ := frac_range hk (A.fl (((l.length : ℝ) - 1) * lev))
  obtain ⟨b1, b2⟩ := lerpF_range hk hr hu (srt_mono i2 i3) (hv _ (srt_mem i1)) (hv _ (srt_mem i3)) g0 g1
  exact ⟨_, _, rfl, i1, by rw [quantileAtF_eq, if_neg hl], b1, b2⟩

/-- The quantile at any level from 0 to 1 lies between two of the values. -/
theorem quantileAtF_range (hk : KeepsIntegers A.fl) (hr : RoundsTo u A.fl) (hu : u ≤ 1 / 8) {lev : ℝ} (l0 : 0 ≤ lev) (l1 : lev ≤ 1) {l : List ℝ} (hl : l ≠ []) (hb : l.length ≤ 2 ^ 53)
    (hv : ∀ w ∈ l, A.fl w = w) : ∃ v, quantileAtF A lev l = some v ∧ (∃ lo ∈ l, lo ≤ v) ∧ ∃ hi ∈ l, v ≤ hi := by
  obtain ⟨i, v, -, hi, hq, b1, b2⟩ := quantileAtF_between hk hr hu l0 l1 hl hb hv
  exact ⟨v, hq, ⟨_, srt_mem hi, b1⟩, ⟨_, srt_mem (by omega), b2⟩⟩

/-- C283: also with rounding every output value lies within the range of the window's values at that time of day, and is the
common value if they are all equal; it is NaN exactly where the window has no values or the day `n` days before has no data. -/
theorem C283_range (hk : KeepsIntegers A.fl) (hr : RoundsTo u A.fl) (hu : u ≤ 1 / 8) (isFrame : Bool) (name : ColName) (nm : String) (hnm : nameOk isFrame name nm)
    (ts : List (ℤ × Option ℝ)) (hne : ts ≠ []) (hs : Increasing ts) (hb : ts.length ≤ 2 ^ 53) (hv : ∀ p ∈ ts, ∀ v, p.2 = some v → A.fl v = v)
    (n : ℤ) (q : ℝ) (h0 : 0 ≤ q) (h1 : q ≤ 1) :
    ∃ out, calcQuantileF A isFrame name ts n q = .ok (nm, out) ∧ out.map Prod.fst = ts.map Prod.fst ∧
      ∀ p ∈ out, (p.2 = none ↔ (p.1 / day - n ∉ ts.map (fun p => p.1 / day) ∨ windowVals n ts p.1 = [])) ∧
        ∀ v, p.2 = some v → (∃ lo ∈ windowVals n ts p.1, lo ≤ v) ∧ (∃ hi ∈ windowVals n ts p.1, v ≤ hi) ∧
          ∀ c, (∀ w ∈ windowVals n ts p.1, w = c) → v = c := by
  refine ⟨_, valueF isFrame name nm hnm ts hne hs n q, by rw [List.map_map]; rfl, ?_⟩
  intro p hp
  obtain ⟨r, -, rfl⟩ := List.mem_map.1 hp
  constructor
  · rw [quantileF_eq]
    by_cases hin : r.1 / day - n ∈ ts.map (fun p => p.1 / day)
    · rw [if_pos hin]
      by_cases hl : windowVals n ts r.1 = []
      · simp [hl]
      · rw [if_neg hl]; simp only [hl, or_false, hin, not_true_eq_false, reduceCtorEq]
    · rw [if_neg hin]; simp only [hin, not_false_eq_true, true_or]
  intro v hv'
  split_ifs at hv' with hin
  rw [quantileF_eq] at hv'
  split_ifs at hv' with hl
  have hlp := List.length_pos_iff.2 hl
  have hlb : (windowVals n ts r.1).length ≤ 2 ^ 53 := (List.length_filterMap_le _ _).trans hb
  obtain ⟨p0, p1⟩ := pos_range hk h0 h1 hlp hlb
  obtain ⟨i1, i2, i3⟩ := idxF hlp p0 p1
  have hfl : ∀ w ∈ windowVals n ts r.1, A.fl w = w := by
    intro w hw
    obtain ⟨z, hz, he⟩ := List.mem_filterMap.1 hw
    split_ifs at he with hc
    exact hv z hz w he
  obtain ⟨g0, g1⟩ := frac_range hk (A.fl ((((windowVals n ts r.1).length : ℝ) - 1) * levelF A q))
  obtain ⟨b1, b2⟩ := lerpF_range hk hr hu (srt_mono i2 i3) (hfl _ (srt_mem i1)) (hfl _ (srt_mem i3)) g0 g1
  rw [Option.some.injEq] at hv'
  rw [hv'] at b1 b2
  refine ⟨⟨_, srt_mem i1, b1⟩, ⟨_, srt_mem i3, b2⟩, ?_⟩
  intro c hc
  rw [hc _ (srt_mem i1)] at b1
  rw [hc _ (srt_mem i3)] at b2
  linarith

/-- C283: also with rounding level 0 is exactly the minimum and level 1 exactly the maximum of the window's values. -/
theorem C283_extremes (hk : KeepsIntegers A.fl) (isFrame : Bool) (name : ColName) (nm : String) (hnm : nameOk isFrame name nm)
    (ts : List (ℤ × Option ℝ)) (hne : ts ≠ []) (hs : Increasing ts) (hb : ts.length ≤ 2 ^ 53) (hv : ∀ p ∈ ts, ∀ v, p.2 = some v → A.fl v = v) (n : ℤ) :
    (∃ out, calcQuantileF A isFrame name ts n 0 = .ok (nm, out) ∧
      ∀ p ∈ out, ∀ v, p.2 = some v → v ∈ windowVals n ts p.1 ∧ ∀ w ∈ windowVals n ts p.1, v ≤ w) ∧
    (∃ out, calcQuantileF A isFrame name ts n 1 = .ok (nm, out) ∧
      ∀ p ∈ out, ∀ v, p.2 = some v → v ∈ windowVals n ts p.1 ∧ ∀ w ∈ windowVals n ts p.1, w ≤ v) := by
  have z := zeroQ hk
  have hd : A.fl 100 = 100 := by have := hk.int 100 (by norm_num); simpa using this
  have l0 : levelF A 0 = 0 := by unfold levelF; rw [zero_mul, z, zero_div, z]
  have l1 : levelF A 1 = 1 := by unfold levelF; rw [one_mul, hd, div_self (by norm_num), oneQ hk]
  have hfl : ∀ x, ∀ w ∈ windowVals n ts x, A.fl w = w := by
    intro x w hw
    obtain ⟨c, hc, he⟩ := List.mem_filterMap.1 hw
    split_ifs at he with hcc
    exact hv c hc w he
  have hget : ∀ (l : List ℝ) (w : ℝ), w ∈ l → ∃ i, i < l.length ∧ (srt l).getD i 0 = w := by
    intro l w hw
    have : w ∈ srt l := (List.perm_insertionSort (· ≤ ·) l).mem_iff.2 hw
    obtain ⟨i, hi, rfl⟩ := List.mem_iff_getElem.1 this
    rw [srt_length] at hi
    exact ⟨i, hi, List.getD_eq_getElem _ _ _⟩
  have hl0 : ∀ a b : ℝ, A.fl a = a → lerpF A a b 0 = a := by
    intro a b ha
    unfold lerpF
    rw [if_pos (by norm_num), mul_zero, z, add_zero, ha]
  constructor
  · refine ⟨_, valueF isFrame name nm hnm ts hne hs n 0, ?_⟩
    intro p hp v hv'
    obtain ⟨r, -, rfl⟩ := List.mem_map.1 hp
    simp only at hv' ⊢
    split_ifs at hv' with hin
    rw [quantileF_eq] at hv'
    split_ifs at hv' with hl
    have hlp := List.length_pos_iff.2 hl
    rw [Option.some.injEq, l0, mul_zero, z, Int.floor_zero, Int.cast_zero, sub_zero, z, Int.toNat_zero, hl0 _ _ (hfl _ _ (srt_mem hlp))] at hv'
    subst hv'
    refine ⟨srt_mem hlp, ?_⟩
    intro w hw
    obtain ⟨i, hi, rfl⟩ := hget _ _ hw
    exact srt_mono (Nat.zero_le i) hi
  · refine ⟨_, valueF isFrame name nm hnm ts hne hs n 1, ?_⟩
    intro p hp v hv'
    obtain ⟨r, -, rfl⟩ := List.mem_map.1 hp
    simp only at hv' ⊢
    split_ifs at hv' with hin
    rw [quantileF_eq] at hv'
    split_ifs at hv' with hl
    have hlp := List.length_pos_iff.2 hl
    have hlb : (windowVals n ts r.1).length ≤ 2 ^ 53 := (List.length_filterMap_le _ _).trans hb
    have hi : A.fl (((windowVals n ts r.1).length : ℝ) - 1) = (((windowVals n ts r.1).length - 1 : ℕ) : ℝ) := by
      have := hk.int (((windowVals n ts r.1).length : ℤ) - 1) (by rw [abs_of_nonneg (by omega)]; omega)
      push_cast at this
      rw [this, Nat.cast_sub hlp, Nat.cast_one]
    have hj : (windowVals n ts r.1).length - 1 < (windowVals n ts r.1).length := by omega
    rw [Option.some.injEq, l1, mul_one, hi, Int.floor_natCast, Int.cast_natCast, sub_self, z, Int.toNat_natCast, hl0 _ _ (hfl _ _ (srt_mem hj))] at hv'
    subst hv'
    refine ⟨srt_mem hj, ?_⟩
    intro w hw
    obtain ⟨i, hi, rfl⟩ := hget _ _ hw
    exact srt_mono (by omega) hj

/-! ## Distance from the exact quantile -/

/-- Interpolation at a position. -/
private noncomputable def ip (l : List ℝ) (p : ℝ) : ℝ :=
  (srt l).getD ⌊p⌋.toNat 0 + ((srt l).getD (min (⌊p⌋.toNat + 1) (l.length - 1)) 0 - (srt l).getD ⌊p⌋.toNat 0) * (p - ⌊p⌋)

private theorem interpAt_ip {l : List ℝ} {p : ℝ} (hl : 0 < l.length) (h0 : 0 ≤ p) (h1 : p ≤ (l.length : ℝ) - 1) : interpAt l p = ip l p := by
  unfold interpAt ip
  have f0 : 0 ≤ ⌊p⌋ := Int.floor_nonneg.2 h0
  by_cases h : p = ⌊p⌋
  · rw [sub_eq_zero.2 h, mul_zero, mul_zero]
  · have hlt : (⌊p⌋ : ℝ) < p := lt_of_le_of_ne (Int.floor_le p) (fun e => h e.symm)
    have hc : ⌈p⌉ = ⌊p⌋ + 1 := by
      rw [Int.ceil_eq_iff]
      push_cast
      exact ⟨by linarith, (Int.lt_floor_add_one p).le⟩
    have h2 : ⌊p⌋ < (l.length : ℤ) - 1 := by
      have : ((⌊p⌋ : ℤ) : ℝ) < (l.length : ℝ) - 1 := hlt.trans_le h1
      exact_mod_cast this
    have e : min (⌊p⌋.toNat + 1) (l.length - 1) = ⌈p⌉.toNat := by rw [hc]; omega
    rw [e]

/-- The interpolation changes by at most the range of the values per position. -/
private theorem ip_lip {l : List ℝ} {R p p' : ℝ} (hl : 0 < l.length) (hR : ∀ x ∈ l, ∀ y ∈ l, x - y ≤ R) (h0 : 0 ≤ p) (hpp : p ≤ p') (h1 : p' ≤ (l.length : ℝ) - 1) :
    |ip l p' - ip l p| ≤ R * (p' - p) := by
  obtain ⟨i1, i2, i3⟩ := idxF hl h0 (hpp.trans h1)
  obtain ⟨j1, j2, j3⟩ := idxF hl (h0.trans hpp) h1
  have f0 := Int.floor_le p
  have f1 := Int.lt_floor_add_one p
  have g0 := Int.floor_le p'
  have g1 := Int.lt_floor_add_one p'
  have k0 : 0 ≤ ⌊p⌋ := Int.floor_nonneg.2 h0
  have s1 := srt_mono i2 i3
  have s2 := srt_mono j2 j3
  have r1 := hR _ (srt_mem i3) _ (srt_mem i1)
  have r2 := hR _ (srt_mem j3) _ (srt_mem j1)
  have R0 : 0 ≤ R := by have := hR _ (srt_mem i1) _ (srt_mem i1); linarith
  unfold ip
  rcases (Int.floor_le_floor hpp).eq_or_lt with e | e
  · rw [← e] at r2 s2 g0 g1 ⊢
    rw [abs_le]
    constructor <;> nlinarith [mul_nonneg (sub_nonneg.2 s1) (sub_nonneg.2 hpp), mul_nonneg (sub_nonneg.2 r1) (sub_nonneg.2 hpp), mul_nonneg R0 (sub_nonneg.2 hpp)]
  · have ej : min (⌊p⌋.toNat + 1) (l.length - 1) = ⌊p⌋.toNat + 1 := by omega
    rw [ej] at s1 r1 i3 ⊢
    have s3 := srt_mono (l := l) (show ⌊p⌋.toNat + 1 ≤ ⌊p'⌋.toNat by omega) j1
    have r3 := hR _ (srt_mem j1) _ (srt_mem i3)
    have e' : (⌊p⌋ : ℝ) + 1 ≤ ⌊p'⌋ := by exact_mod_cast e
    have r4 : (srt l).getD ⌊p'⌋.toNat 0 - (srt l).getD (⌊p⌋.toNat + 1) 0 ≤ R * (⌊p'⌋ - ⌊p⌋ - 1) := by
      rcases (Int.add_one_le_iff.2 e).eq_or_lt with e2 | e2
      · have : ⌊p'⌋.toNat = ⌊p⌋.toNat + 1 := by omega
        rw [this, sub_self]
        exact mul_nonneg R0 (by linarith)
      · have : (⌊p⌋ : ℝ) + 1 + 1 ≤ ⌊p'⌋ := by exact_mod_cast e2
        nlinarith
    have q1 := mul_nonneg (sub_nonneg.2 s1) (show (0 : ℝ) ≤ 1 - (p - ⌊p⌋) by linarith)
    have q2 := mul_nonneg (sub_nonneg.2 s2) (show (0 : ℝ) ≤ p' - ⌊p'⌋ by linarith)
    have q3 := mul_nonneg (sub_nonneg.2 r1) (show (0 : ℝ) ≤ 1 - (p - ⌊p⌋) by linarith)
    have q4 := mul_nonneg (sub_nonneg.2 r2) (show (0 : ℝ) ≤ p' - ⌊p'⌋ by linarith)
    have q5 := mul_nonneg R0 (sub_nonneg.2 hpp)
    rw [abs_le]
    constructor <;> nlinarith

private theorem ip_lip' {l : List ℝ} {R p p' : ℝ} (hl : 0 < l.length) (hR : ∀ x ∈ l, ∀ y ∈ l, x - y ≤ R) (h0 : 0 ≤ p) (h0' : 0 ≤ p') (h1 : p ≤ (l.length : ℝ) - 1)
    (h1' : p' ≤ (l.length : ℝ) - 1) : |ip l p' - ip l p| ≤ R * |p' - p| := by
  rcases le_total p p' with h | h
  · rw [abs_of_nonneg (sub_nonneg.2 h)]; exact ip_lip hl hR h0 h h1'
  · rw [abs_sub_comm, abs_sub_comm p', abs_of_nonneg (sub_nonneg.2 h)]; exact ip_lip hl hR h0' h h1

private theorem flQ_abs (hr : RoundsTo u A.fl) {x y e m : ℝ} (u0 : 0 ≤ u) (h : |x - y| ≤ e) (hm : |x| ≤ m) : |A.fl x - y| ≤ u * m + e := by
  have a := hr x
  have b : u * |x| ≤ u * m := mul_le_mul_of_nonneg_left hm u0
  calc |A.fl x - y| = |(A.fl x - x) + (x - y)| := by congr 1; ring
    _ ≤ _ := (abs_add_le _ _).trans (by linarith)

/-- The rounded interpolation at a fraction off by `u`. -/
private theorem lerpF_err (hk : KeepsIntegers A.fl) (hr : RoundsTo u A.fl) (u0 : 0 ≤ u) (hu : u ≤ 1e-3) {a b t t' M R : ℝ} (hab : a ≤ b) (hR : b - a ≤ R)
    (ha : |a| ≤ M) (hb : |b| ≤ M) (t0 : 0 ≤ t') (t1 : t' ≤ 1) (ht : |t' - t| ≤ u) (s0 : 0 ≤ t) (s1 : t ≤ 1) :
    |lerpF A a b t' - (a + (b - a) * t)| ≤ u * (M + 5 * R) := by
  have z := zeroQ hk
  have R0 : 0 ≤ R := by linarith
  have d0 : 0 ≤ A.fl (b - a) := by have := hk.mono (sub_nonneg.2 hab); rwa [z] at this
  have d1 : |A.fl (b - a) - (b - a)| ≤ u * R + 0 := flQ_abs hr u0 (by rw [sub_self, abs_zero]) (by rw [abs_of_nonneg (sub_nonneg.2 hab)]; exact hR)
  obtain ⟨d2, d3⟩ := abs_le.1 d1
  obtain ⟨ht1, ht2⟩ := abs_le.1 ht
  have uR : 0 ≤ u * R := mul_nonneg u0 R0
  have uRs : u * R ≤ 1e-3 * R := mul_le_mul_of_nonneg_right hu R0
  have uuR : u * (u * R) ≤ 1e-3 * (u * R) := mul_le_mul_of_nonneg_right hu uR
  have c0 := mul_nonneg (sub_nonneg.2 hab) s0
  have c1 := mul_nonneg (sub_nonneg.2 hab) (sub_nonneg.2 s1)
  have hc : |a + (b - a) * t| ≤ M := by
    rw [abs_le] at ha hb ⊢
    constructor <;> nlinarith
  have prod : ∀ s s' : ℝ, 0 ≤ s' → s' ≤ 1.001 → |s' - s| ≤ 2.01 * u → |A.fl (b - a) * s' - (b - a) * s| ≤ 3.02 * (u * R) ∧ |A.fl (b - a) * s'| ≤ 1.01 * R := by
    intro s s' p0 p1 p2
    obtain ⟨p3, p4⟩ := abs_le.1 p2
    have e1 : |(A.fl (b - a) - (b - a)) * s'| ≤ 1.001 * (u * R) := by
      rw [abs_mul, abs_of_nonneg p0]
      calc _ ≤ (u * R + 0) * 1.001 := mul_le_mul d1 p1 p0 (by linarith)
        _ = _ := by ring
    have e2 : |(b - a) * (s' - s)| ≤ 2.01 * (u * R) := by
      rw [abs_mul, abs_of_nonneg (sub_nonneg.2 hab)]
      calc _ ≤ R * (2.01 * u) := mul_le_mul hR p2 (abs_nonneg _) R0
        _ = _ := by ring
    constructor
    · calc _ = |(A.fl (b - a) - (b - a)) * s' + (b - a) * (s' - s)| := by congr 1; ring
        _ ≤ _ := (abs_add_le _ _).trans (by linarith)
    · rw [abs_of_nonneg (mul_nonneg d0 p0)]
      calc _ ≤ (1.001 * R) * 1.001 := mul_le_mul (by linarith) p1 p0 (by linarith)
        _ ≤ _ := by nlinarith
  have fin : ∀ x, |x - (a + (b - a) * t)| ≤ 4.04 * (u * R) → |A.fl x - (a + (b - a) * t)| ≤ u * (M + 5 * R) := by
    intro x hx
    have hx2 : |x| ≤ M + 4.04 * (u * R) := by
      calc |x| = |(x - (a + (b - a) * t)) + (a + (b - a) * t)| := by congr 1; ring
        _ ≤ _ := (abs_add_le _ _).trans (by linarith)
    have := flQ_abs hr u0 hx hx2
    nlinarith
  unfold lerpF
  split_ifs with h
  · apply fin
    obtain ⟨q1, q2⟩ := prod t t' t0 (by linarith) (ht.trans (by linarith))
    have q3 := flQ_abs hr u0 q1 q2
    calc _ = |A.fl (A.fl (b - a) * t') - (b - a) * t| := by congr 1; ring
      _ ≤ _ := q3.trans (by nlinarith)
  · apply fin
    have v0 : 0 ≤ A.fl (1 - t') := by have := hk.mono (sub_nonneg.2 t1); rwa [z] at this
    have v1 : A.fl (1 - t') ≤ 1 := by have := hk.mono (show 1 - t' ≤ 1 by linarith); rwa [oneQ hk] at this
    have v2 : |A.fl (1 - t') - (1 - t)| ≤ u * 1 + u := flQ_abs hr u0 (by rw [abs_le]; constructor <;> linarith) (by rw [abs_of_nonneg (sub_nonneg.2 t1)]; linarith)
    obtain ⟨q1, q2⟩ := prod (1 - t) (A.fl (1 - t')) v0 (by linarith) (v2.trans (by linarith))
    have q3 := flQ_abs hr u0 q1 q2
    calc _ = |A.fl (A.fl (b - a) * A.fl (1 - t')) - (b - a) * (1 - t)| := by rw [← abs_neg]; congr 1; ring
      _ ≤ _ := q3.trans (by nlinarith)

/-- Relative error of the position. -/
private theorem pos_err (hr : RoundsTo u A.fl) (u0 : 0 ≤ u) (hu : u ≤ 1e-3) {q m : ℝ} (h0 : 0 ≤ q) (h1 : q ≤ 1) (m0 : 0 ≤ m) :
    |A.fl (m * levelF A q) - q * m| ≤ u * (3.01 * m) := by
  have e1 : |A.fl (q * 100) - q * 100| ≤ u * 100 + 0 := flQ_abs hr u0 (by rw [sub_self, abs_zero]) (by rw [abs_of_nonneg (by positivity)]; linarith)
  have e2 : |A.fl (q * 100) / 100 - q| ≤ u := by
    obtain ⟨a, b⟩ := abs_le.1 e1
    rw [abs_le]
    constructor <;> linarith
  have e3 : |levelF A q - q| ≤ u * 1.001 + u := flQ_abs hr u0 e2 (by obtain ⟨a, b⟩ := abs_le.1 e2; rw [abs_le]; constructor <;> linarith)
  obtain ⟨a, b⟩ := abs_le.1 e3
  have e4 : |m * levelF A q - q * m| ≤ m * (u * 1.001 + u) := by
    rw [show m * levelF A q - q * m = m * (levelF A q - q) by ring, abs_mul, abs_of_nonneg m0]
    exact mul_le_mul_of_nonneg_left e3 m0
  have e5 : |m * levelF A q| ≤ 1.003 * m := by
    rw [abs_mul, abs_of_nonneg m0, mul_comm]
    apply mul_le_mul_of_nonneg_right _ m0
    rw [abs_le]
    constructor <;> linarith
  refine (flQ_abs hr u0 e4 e5).trans ?_
  nlinarith [mul_nonneg u0 m0]

/-- The quantile at a level within two roundings of `q`, compared with the exact quantile at `q`. -/
theorem quantileAtF_err (h : FloatLike (2 ^ (-53 : ℤ)) A) (hk : KeepsIntegers A.fl) {q lev : ℝ} (h0 : 0 ≤ q) (h1 : q ≤ 1) (l0 : 0 ≤ lev) (l1 : lev ≤ 1)
    {l : List ℝ} (hl : l ≠ []) (hlb : l.length ≤ 2 ^ 53) (he : |A.fl (((l.length : ℝ) - 1) * lev) - q * ((l.length : ℝ) - 1)| ≤ 2 ^ (-53 : ℤ) * (3.01 * ((l.length : ℝ) - 1))) :
    BothOr (fun x v => ∀ M R, (∀ w ∈ l, |w| ≤ M) → (∀ w ∈ l, ∀ y ∈ l, w - y ≤ R) → |v - x| ≤ 2 ^ (-53 : ℤ) * (M + 5 * l.length * R)) (Stats.quantileLin q l) (quantileAtF A lev l) := by
  rw [quantileLin_eq, quantileAtF_eq, if_neg hl, if_neg hl]
  intro M R hM hR
  have hlp := List.length_pos_iff.2 hl
  have hm1 : (1 : ℝ) ≤ l.length := by exact_mod_cast hlp
  have u0 : (0 : ℝ) ≤ 2 ^ (-53 : ℤ) := by positivity
  have u1 : (2 : ℝ) ^ (-53 : ℤ) ≤ 1e-3 := by norm_num
  obtain ⟨p0, p1⟩ := pos_rangeL hk l0 l1 hlp hlb
  have e1 := he
  have x0 : 0 ≤ q * ((l.length : ℝ) - 1) := mul_nonneg h0 (by linarith)
  have x1 : q * ((l.length : ℝ) - 1) ≤ (l.length : ℝ) - 1 := by nlinarith
  rw [interpAt_ip hlp x0 x1]
  have e2 := ip_lip' hlp hR x0 p0 x1 p1
  generalize A.fl (((l.length : ℝ) - 1) * lev) = z at *
  obtain ⟨i1, i2, i3⟩ := idxF hlp p0 p1
  obtain ⟨t0, t1⟩ := frac_range hk z
  have f0 := Int.floor_le z
  have f1 := Int.lt_floor_add_one z
  have R0 : 0 ≤ R := by have := hR _ (srt_mem i1) _ (srt_mem i1); linarith
  have et : |A.fl (z - ⌊z⌋) - (z - ⌊z⌋)| ≤ 2 ^ (-53 : ℤ) := by
    have := h.rounds (z - ⌊z⌋)
    rw [abs_of_nonneg (show 0 ≤ z - ⌊z⌋ by linarith)] at this
    exact this.trans (mul_le_of_le_one_right u0 (by linarith))
  have e3 := lerpF_err hk h.rounds u0 u1 (srt_mono i2 i3) (hR _ (srt_mem i3) _ (srt_mem i1)) (hM _ (srt_mem i1)) (hM _ (srt_mem i3)) t0 t1 et (by linarith) (by linarith)
  have e4 : R * |z - q * ((l.length : ℝ) - 1)| ≤ R * (2 ^ (-53 : ℤ) * (3.01 * ((l.length : ℝ) - 1))) := mul_le_mul_of_nonneg_left e1 R0
  change |_ - ip l _| ≤ _
  have e5 := (abs_sub_le _ (ip l z) (ip l (q * ((l.length : ℝ) - 1)))).trans (add_le_add e3 (e2.trans e4))
  refine e5.trans ?_
  have : 0 ≤ R * ((l.length : ℝ) - 1) := mul_nonneg R0 (by linarith)
  generalize (2 : ℝ) ^ (-53 : ℤ) = w at *
  nlinarith [mul_nonneg u0 this]

/-- C283: the result differs from the quantile of exact arithmetic by at most `2⁻⁵³ * (M + 5 * k * R)`, where `k` is the number of
values of the window at that time of day, `M` bounds their size and `R` their range. -/
theorem C283_error (h : FloatLike (2 ^ (-53 : ℤ)) A) (hk : KeepsIntegers A.fl) (isFrame : Bool) (name : ColName) (nm : String) (hnm : nameOk isFrame name nm)
    (ts : List (ℤ × Option ℝ)) (hne : ts ≠ []) (hs : Increasing ts) (hb : ts.length ≤ 2 ^ 53) (n : ℤ) (q : ℝ) (h0 : 0 ≤ q) (h1 : q ≤ 1) :
    ∃ out out', calcQuantile isFrame name ts n q = .ok (nm, out) ∧ calcQuantileF A isFrame name ts n q = .ok (nm, out') ∧
      List.Forall₂ (fun a b => a.1 = b.1 ∧ BothOr (fun x v => ∀ M R, (∀ w ∈ windowVals n ts a.1, |w| ≤ M) →
        (∀ w ∈ windowVals n ts a.1, ∀ y ∈ windowVals n ts a.1, w - y ≤ R) →
        |v - x| ≤ 2 ^ (-53 : ℤ) * (M + 5 * (windowVals n ts a.1).length * R)) a.2 b.2) out out' := by
  refine ⟨_, _, C61_value isFrame name nm hnm ts hne hs n q, valueF isFrame name nm hnm ts hne hs n q, ?_⟩
  rw [List.forall₂_map_left_iff, List.forall₂_map_right_iff]
  apply List.forall₂_same.2
  intro p _
  refine ⟨rfl, ?_⟩
  simp only
  split_ifs with hin
  swap
  · trivial
  by_cases hl : windowVals n ts p.1 = []
  · rw [hl, quantileF_eq, quantileLin_eq]
    trivial
  have hlp := List.length_pos_iff.2 hl
  have hm1 : (1 : ℝ) ≤ (windowVals n ts p.1).length := by exact_mod_cast hlp
  obtain ⟨l0, l1⟩ := levelF_range hk h0 h1
  exact quantileAtF_err h hk h0 h1 l0 l1 hl ((List.length_filterMap_le _ _).trans hb) (pos_err h.rounds (by positivity) (by norm_num) h0 h1 (by linarith))

/-- The hypotheses hold in a concrete case: float64, three days of one value each. -/
example : FloatLike (2 ^ (-53 : ℤ)) ⟨even53, sumEven⟩ ∧ KeepsIntegers even53 ∧ nameOk false (.str "a") "a_quant" ∧
    Increasing [(0, some 1), (86400, some 3), (172800, none)] ∧
    (∀ p ∈ [((0 : ℤ), some (1 : ℝ)), (86400, some 3), (172800, none)], ∀ v, p.2 = some v → even53 v = v) := by
  refine ⟨floatEven, keepsEven, Or.inl ⟨"a", rfl, rfl⟩, by simp [Increasing], ?_⟩
  have a : even53 1 = 1 := by have := even53_int 1 (by norm_num); simpa using this
  have b : even53 3 = 3 := by have := even53_int 3 (by norm_num); simpa using this
  simp [a, b]

end SST.Round
