import Verif.Props.FullProcess

/-!
# Properties C174-C176: the complete reassignment procedure with exact measurements; the choice of the cloud vectors

Specifications: `Spec/FullProcess.lean`, `Spec/Reassign.lean`.
-/

namespace SST.Props.FullProcess
open SST SST.Field SST.Spec SST.Spatial

/-! ## C176 -/

section pairs
variable {κ : Type} [DecidableEq κ]

private theorem mem_combos (keys : List κ) (p : κ × κ) :
    p ∈ combos keys ↔ ∃ pre mid post, keys = pre ++ p.1 :: (mid ++ p.2 :: post) := by
  induction keys with
  | nil => simp [combos]
  | cons a l ih =>
    simp only [combos, List.mem_append, List.mem_map, ih]
    constructor
    · rintro (⟨b, hb, rfl⟩ | ⟨pre, mid, post, h⟩)
      · obtain ⟨mid, post, rfl⟩ := List.append_of_mem hb
        exact ⟨[], mid, post, rfl⟩
      · exact ⟨a :: pre, mid, post, by rw [h]; rfl⟩
    · rintro ⟨pre, mid, post, h⟩
      cases pre with
      | nil =>
        simp only [List.nil_append, List.cons.injEq] at h
        left
        refine ⟨p.2, by rw [h.2]; simp, ?_⟩
        rw [h.1]
      | cons c pre =>
        simp only [List.cons_append, List.cons.injEq] at h
        exact Or.inr ⟨pre, mid, post, h.2⟩

private theorem combos_nodup {keys : List κ} (h : keys.Nodup) : (combos keys).Nodup := by
  induction keys with
  | nil => simp [combos]
  | cons a l ih =>
    obtain ⟨ha, hl⟩ := List.nodup_cons.1 h
    simp only [combos]
    rw [List.nodup_append]
    refine ⟨hl.map (fun x y e => (Prod.mk.inj e).2), ih hl, ?_⟩
    rintro p hp q hq rfl
    obtain ⟨b, -, rfl⟩ := List.mem_map.1 hp
    obtain ⟨pre, mid, post, e⟩ := (mem_combos l _).1 hq
    exact ha (by rw [e]; simp)

open Classical in
private theorem fold_erase (ok : κ × κ → Prop) (l : List (κ × κ)) : ∀ (acc : List (κ × κ)), acc.Nodup →
    (l.foldl (fun a p => if ok p then a else a.erase p) acc).Nodup ∧
    ∀ p, p ∈ l.foldl (fun a p => if ok p then a else a.erase p) acc ↔ p ∈ acc ∧ (p ∈ l → ok p) := by
  induction l with
  | nil => intro acc h; simp [h]
  | cons q l ih =>
    intro acc h
    rw [List.foldl_cons]
    by_cases hq : ok q
    · simp only [hq, if_true]
      refine ⟨(ih acc h).1, fun p => ?_⟩
      rw [(ih acc h).2 p]
      constructor
      · rintro ⟨h1, h2⟩
        refine ⟨h1, fun hp => ?_⟩
        rcases List.mem_cons.1 hp with rfl | hp
        · exact hq
        · exact h2 hp
      · rintro ⟨h1, h2⟩
        exact ⟨h1, fun hp => h2 (List.mem_cons_of_mem _ hp)⟩
    · simp only [hq, if_false]
      refine ⟨(ih _ (h.erase q)).1, fun p => ?_⟩
      rw [(ih _ (h.erase q)).2 p, h.mem_erase_iff]
      constructor
      · rintro ⟨⟨h0, h1⟩, h2⟩
        refine ⟨h1, fun hp => ?_⟩
        rcases List.mem_cons.1 hp with rfl | hp
        · exact absurd rfl h0
        · exact h2 hp
      · rintro ⟨h1, h2⟩
        refine ⟨⟨?_, h1⟩, fun hp => h2 (List.mem_cons_of_mem _ hp)⟩
        rintro rfl
        exact hq (h2 List.mem_cons_self)

theorem mem_pairs {minSep : ℝ} {vec : κ → Vec} {keys : List κ} (h : keys.Nodup) (p : κ × κ) :
    p ∈ cmvPairs minSep vec keys ↔ p ∈ combos keys ∧ wellSeparated minSep (angBetween (vec p.1) (vec p.2)) := by
  unfold cmvPairs
  rw [(fold_erase (fun p => wellSeparated minSep (angBetween (vec p.1) (vec p.2))) _ _ (combos_nodup h)).2 p]
  constructor
  · rintro ⟨h1, h2⟩; exact ⟨h1, h2 h1⟩
  · rintro ⟨h1, h2⟩; exact ⟨h1, fun _ => h2⟩

private theorem mag_sq (a : Vec) : magnitude a ^ 2 = a.1 ^ 2 + a.2 ^ 2 := by
  unfold magnitude
  exact Real.sq_sqrt (by positivity)

/-- The cosine used by `ang_between`. -/
private theorem cos_between {a b : Vec} (ha : magnitude a ≠ 0) (hb : magnitude b ≠ 0) :
    dot (a.1 / magnitude a, a.2 / magnitude a) (b.1 / magnitude b, b.2 / magnitude b) =
      (a.1 * b.1 + a.2 * b.2) / (magnitude a * magnitude b) := by
  simp only [dot]
  field_simp

private theorem cos_range {a b : Vec} (ha : magnitude a ≠ 0) (hb : magnitude b ≠ 0) :
    -1 ≤ (a.1 * b.1 + a.2 * b.2) / (magnitude a * magnitude b) ∧ (a.1 * b.1 + a.2 * b.2) / (magnitude a * magnitude b) ≤ 1 := by
  have hpos : 0 < magnitude a * magnitude b :=
    mul_pos (lt_of_le_of_ne (Real.sqrt_nonneg _) (Ne.symm ha)) (lt_of_le_of_ne (Real.sqrt_nonneg _) (Ne.symm hb))
  have key : |a.1 * b.1 + a.2 * b.2| ≤ magnitude a * magnitude b := by
    apply abs_le_of_sq_le_sq _ hpos.le
    rw [mul_pow, mag_sq, mag_sq]
    nlinarith [sq_nonneg (a.1 * b.2 - a.2 * b.1)]
  rw [abs_le] at key
  constructor
  · rw [le_div_iff₀ hpos]; linarith
  · rw [div_le_one hpos]; exact key.2

private theorem mag_ne {a : Vec} : magnitude a ≠ 0 ↔ a ≠ 0 := by
  constructor
  · rintro h rfl; simp [magnitude] at h
  · intro h; exact (magnitude_pos h).ne'

/-- Vectors whose angle passes the test with any non-negative limit are not parallel. -/
private theorem separated_cross {m : ℝ} (hm : 0 ≤ m) {a b : Vec} (h : wellSeparated m (angBetween a b)) :
    a.1 * b.2 - a.2 * b.1 ≠ 0 := by
  unfold angBetween at h
  by_cases hz : magnitude a = 0 ∨ magnitude b = 0
  · rw [if_pos hz] at h; exact absurd h (by simp [wellSeparated])
  · rw [if_neg hz] at h
    push Not at hz
    obtain ⟨ha, hb⟩ := hz
    rw [cos_between ha hb] at h
    intro hc
    have hpos : 0 < magnitude a * magnitude b :=
      mul_pos (lt_of_le_of_ne (Real.sqrt_nonneg _) (Ne.symm ha)) (lt_of_le_of_ne (Real.sqrt_nonneg _) (Ne.symm hb))
    have hsq : ((a.1 * b.1 + a.2 * b.2) / (magnitude a * magnitude b)) ^ 2 = 1 := by
      rw [div_pow, div_eq_one_iff_eq (by positivity), mul_pow, mag_sq, mag_sq]
      linear_combination (-(a.1 * b.2 - a.2 * b.1)) * hc
    simp only [wellSeparated] at h
    rcases sq_eq_sq_iff_eq_or_eq_neg.1 (hsq.trans (one_pow 2).symm) with e | e
    · rw [e, Real.arccos_one] at h
      simp at h; linarith [h.1]
    · rw [e, Real.arccos_neg_one] at h
      have : Real.pi * 180 / Real.pi = 180 := by field_simp
      rw [this] at h
      linarith [h.2]

theorem separated_iff {m : ℝ} (h0 : 0 ≤ m) (h1 : m ≤ 90) (a b : Vec) : wellSeparated m (angBetween a b) ↔
    (a.1 * b.1 + a.2 * b.2) ^ 2 < Real.cos (m * Real.pi / 180) ^ 2 * ((a.1 ^ 2 + a.2 ^ 2) * (b.1 ^ 2 + b.2 ^ 2)) := by
  have hpi := Real.pi_pos
  have t0 : 0 ≤ m * Real.pi / 180 := by positivity
  have t1 : m * Real.pi / 180 ≤ Real.pi / 2 := by nlinarith
  have hc0 : 0 ≤ Real.cos (m * Real.pi / 180) := Real.cos_nonneg_of_neg_pi_div_two_le_of_le (by linarith) t1
  unfold angBetween
  by_cases hz : magnitude a = 0 ∨ magnitude b = 0
  · rw [if_pos hz]
    have : (a.1 ^ 2 + a.2 ^ 2) * (b.1 ^ 2 + b.2 ^ 2) = 0 := by
      rw [← mag_sq, ← mag_sq]
      rcases hz with h | h <;> simp [h]
    simp only [wellSeparated, false_iff, this, mul_zero, not_lt]
    positivity
  · rw [if_neg hz]
    push Not at hz
    obtain ⟨ha, hb⟩ := hz
    rw [cos_between ha hb]
    have hpos : 0 < magnitude a * magnitude b :=
      mul_pos (lt_of_le_of_ne (Real.sqrt_nonneg _) (Ne.symm ha)) (lt_of_le_of_ne (Real.sqrt_nonneg _) (Ne.symm hb))
    obtain ⟨r1, r2⟩ := cos_range ha hb
    set c := (a.1 * b.1 + a.2 * b.2) / (magnitude a * magnitude b) with hc
    have hdot : a.1 * b.1 + a.2 * b.2 = c * (magnitude a * magnitude b) := by rw [hc, div_mul_cancel₀ _ hpos.ne']
    rw [hdot, mul_pow c, ← mag_sq, ← mag_sq, ← mul_pow (magnitude a), mul_lt_mul_iff_left₀ (by positivity), sq_lt_sq, abs_of_nonneg hc0, abs_lt]
    simp only [wellSeparated]
    have hcos : Real.cos (Real.arccos c) = c := Real.cos_arccos r1 r2
    have a0 := Real.arccos_nonneg c
    have a1 := Real.arccos_le_pi c
    have e1 : m < Real.arccos c * 180 / Real.pi ↔ c < Real.cos (m * Real.pi / 180) := by
      rw [lt_div_iff₀ hpi]
      conv_rhs => rw [← hcos]
      rw [Real.strictAntiOn_cos.lt_iff_gt ⟨a0, a1⟩ ⟨t0, by linarith⟩]
      constructor <;> intro h <;> linarith
    have e2 : Real.arccos c * 180 / Real.pi < 180 - m ↔ -Real.cos (m * Real.pi / 180) < c := by
      rw [div_lt_iff₀ hpi, ← Real.cos_pi_sub]
      conv_rhs => rw [← hcos]
      rw [Real.strictAntiOn_cos.lt_iff_gt ⟨by linarith, by linarith⟩ ⟨a0, a1⟩]
      constructor <;> intro h <;> linarith
    rw [e1, e2]
    exact and_comm

/-- C176: of two different windows exactly one ordering is kept, once, iff their cloud vectors are neither zero nor closer than
`m` degrees to being parallel or antiparallel (`cos² < cos² m`); kept vectors are never parallel. -/
theorem C176_pairs (m : ℝ) (h0 : 0 ≤ m) (h1 : m ≤ 90) (vec : κ → Vec) (keys : List κ) (hk : keys.Nodup) :
    (cmvPairs m vec keys).Nodup ∧
    (∀ p ∈ cmvPairs m vec keys, p.1 ∈ keys ∧ p.2 ∈ keys ∧ p.1 ≠ p.2 ∧
      (vec p.1).1 * (vec p.2).2 - (vec p.1).2 * (vec p.2).1 ≠ 0) ∧
    ∀ a ∈ keys, ∀ b ∈ keys, a ≠ b →
      ((a, b) ∈ cmvPairs m vec keys ∨ (b, a) ∈ cmvPairs m vec keys ↔
        ((vec a).1 * (vec b).1 + (vec a).2 * (vec b).2) ^ 2 < Real.cos (m * Real.pi / 180) ^ 2 *
          (((vec a).1 ^ 2 + (vec a).2 ^ 2) * ((vec b).1 ^ 2 + (vec b).2 ^ 2))) ∧
      ¬ ((a, b) ∈ cmvPairs m vec keys ∧ (b, a) ∈ cmvPairs m vec keys) := by
  have hdiff : ∀ p ∈ combos keys, p.1 ∈ keys ∧ p.2 ∈ keys ∧ p.1 ≠ p.2 := by
    intro p hp
    obtain ⟨pre, mid, post, e⟩ := (mem_combos keys p).1 hp
    refine ⟨by rw [e]; simp, by rw [e]; simp, ?_⟩
    intro hc
    rw [e] at hk
    have := (List.nodup_append.1 hk).2.1
    rw [hc] at this
    exact (List.nodup_cons.1 this).1 (by simp)
  refine ⟨(fold_erase (fun p => wellSeparated m (angBetween (vec p.1) (vec p.2))) _ _ (combos_nodup hk)).1, ?_, ?_⟩
  · intro p hp
    obtain ⟨h2, h3⟩ := (mem_pairs hk p).1 hp
    obtain ⟨d1, d2, d3⟩ := hdiff p h2
    exact ⟨d1, d2, d3, separated_cross h0 h3⟩
  · intro a ha b hb hab
    have hcomm : wellSeparated m (angBetween (vec b) (vec a)) ↔ wellSeparated m (angBetween (vec a) (vec b)) := by
      rw [separated_iff h0 h1, separated_iff h0 h1]
      ring_nf
    rw [mem_pairs hk, mem_pairs hk, ← separated_iff h0 h1]
    simp only
    rw [hcomm]
    constructor
    · constructor
      · rintro (h | h) <;> exact h.2
      · intro h
        obtain ⟨pre, post, e⟩ := List.append_of_mem ha
        rw [e] at hb
        rcases List.mem_append.1 hb with hb | hb
        · obtain ⟨p1, p2, e2⟩ := List.append_of_mem hb
          right
          refine ⟨(mem_combos _ _).2 ⟨p1, p2, post, ?_⟩, h⟩
          rw [e, e2]; simp
        · rcases List.mem_cons.1 hb with rfl | hb
          · exact absurd rfl hab
          · obtain ⟨p1, p2, e2⟩ := List.append_of_mem hb
            left
            refine ⟨(mem_combos _ _).2 ⟨pre, p1, p2, ?_⟩, h⟩
            rw [e, e2]
    · rintro ⟨⟨hx, -⟩, hy, -⟩
      obtain ⟨pre, mid, post, e⟩ := (mem_combos _ _).1 hx
      obtain ⟨pre', mid', post', e'⟩ := (mem_combos _ _).1 hy
      simp only at e e'
      -- positions of `a` and `b` are determined
      have i1 : keys.idxOf a < keys.idxOf b := by
        have hna : a ∉ pre := by
          rw [e] at hk
          intro hin
          exact (List.nodup_append.1 hk).2.2 a hin a (by simp) rfl
        have hnb : b ∉ pre := by
          rw [e] at hk
          intro hin
          exact (List.nodup_append.1 hk).2.2 b hin b (by simp) rfl
        rw [e, List.idxOf_append_of_notMem hna, List.idxOf_append_of_notMem hnb, List.idxOf_cons_self,
          List.idxOf_cons_ne _ hab]
        omega
      have i2 : keys.idxOf b < keys.idxOf a := by
        have hna : a ∉ pre' := by
          rw [e'] at hk
          intro hin
          exact (List.nodup_append.1 hk).2.2 a hin a (by simp) rfl
        have hnb : b ∉ pre' := by
          rw [e'] at hk
          intro hin
          exact (List.nodup_append.1 hk).2.2 b hin b (by simp) rfl
        rw [e', List.idxOf_append_of_notMem hna, List.idxOf_append_of_notMem hnb, List.idxOf_cons_self,
          List.idxOf_cons_ne _ (Ne.symm hab)]
        omega
      omega

/-- C176 for the limit of the demonstration, 45 degrees: `2 cos² < 1`. -/
theorem C176_45_degrees (vec : κ → Vec) (keys : List κ) (hk : keys.Nodup) (a b : κ) (ha : a ∈ keys) (hb : b ∈ keys) (hab : a ≠ b) :
    ((a, b) ∈ cmvPairs 45 vec keys ∨ (b, a) ∈ cmvPairs 45 vec keys) ↔
      2 * ((vec a).1 * (vec b).1 + (vec a).2 * (vec b).2) ^ 2 <
        ((vec a).1 ^ 2 + (vec a).2 ^ 2) * ((vec b).1 ^ 2 + (vec b).2 ^ 2) := by
  rw [((C176_pairs 45 (by norm_num) (by norm_num) vec keys hk).2.2 a ha b hb hab).1,
    show (45 : ℝ) * Real.pi / 180 = Real.pi / 4 by ring, Real.cos_pi_div_four, div_pow, Real.sq_sqrt (by norm_num)]
  constructor <;> intro h <;> linarith

/-- Three windows: west, north-west and east wind; only one pair of the three is separated by more than 45 degrees. -/
example : let vec : Fin 3 → Vec := fun k => if k = 0 then (10, 0) else if k = 1 then (1, 5) else (-8, 0)
    ((0, 1) ∈ cmvPairs 45 vec [0, 1, 2] ∨ (1, 0) ∈ cmvPairs 45 vec [0, 1, 2]) ∧
    ¬ ((0, 2) ∈ cmvPairs 45 vec [0, 1, 2] ∨ (2, 0) ∈ cmvPairs 45 vec [0, 1, 2]) := by
  intro vec
  rw [C176_45_degrees vec [0, 1, 2] (by decide) 0 1 (by simp) (by simp) (by decide),
    C176_45_degrees vec [0, 1, 2] (by decide) 0 2 (by simp) (by simp) (by decide)]
  constructor
  · simp [vec]; norm_num
  · simp [vec]; norm_num

end pairs

/-! ## Predictions from exact measurements -/

section exact
variable {ι κ : Type} [LinearOrder ι]

private theorem meanO_all {l : List ℝ} {x : ℝ} (h : ∀ y ∈ l, y = x) : meanO l = if l = [] then none else some x := by
  by_cases hl : l = []
  · simp [hl, meanO]
  · rw [if_neg hl]
    have : l = List.replicate l.length x := List.eq_replicate_iff.2 ⟨rfl, h⟩
    have hlen : (l.length : ℝ) ≠ 0 := by
      rw [Nat.cast_ne_zero]
      exact fun h => hl (List.length_eq_zero_iff.1 h)
    unfold meanO
    rw [if_neg hl]
    congr 1
    unfold mean
    rw [div_eq_iff hlen]
    conv_lhs => rw [this]
    rw [List.sum_replicate, nsmul_eq_mul, mul_comm]

/-- The mean of predictions each of which is the place `x` or NaN. -/
theorem meanRows_same (rows : List PredRow) (x : Vec) (h : ∀ r ∈ rows, r = ⟨some x.1, some x.2, []⟩ ∨ r = ⟨none, none, []⟩) :
    ((∃ r ∈ rows, r ≠ ⟨none, none, []⟩) → meanRows rows = ⟨some x.1, some x.2, []⟩) ∧
    ((∀ r ∈ rows, r = ⟨none, none, []⟩) → meanRows rows = ⟨none, none, []⟩) := by
  have m1 : meanO (rows.filterMap PredRow.e) = if rows.filterMap PredRow.e = [] then none else some x.1 := by
    apply meanO_all
    intro y hy
    obtain ⟨r, hr, e⟩ := List.mem_filterMap.1 hy
    rcases h r hr with rfl | rfl
    · simpa using e.symm
    · cases e
  have m2 : meanO (rows.filterMap PredRow.n) = if rows.filterMap PredRow.n = [] then none else some x.2 := by
    apply meanO_all
    intro y hy
    obtain ⟨r, hr, e⟩ := List.mem_filterMap.1 hy
    rcases h r hr with rfl | rfl
    · simpa using e.symm
    · cases e
  unfold meanRows
  rw [m1, m2]
  constructor
  · rintro ⟨r, hr, hne⟩
    have hr' := (h r hr).resolve_right hne
    have n1 : rows.filterMap PredRow.e ≠ [] := by
      intro hc
      have : x.1 ∈ rows.filterMap PredRow.e := List.mem_filterMap.2 ⟨r, hr, by rw [hr']⟩
      rw [hc] at this; simp at this
    have n2 : rows.filterMap PredRow.n ≠ [] := by
      intro hc
      have : x.2 ∈ rows.filterMap PredRow.n := List.mem_filterMap.2 ⟨r, hr, by rw [hr']⟩
      rw [hc] at this; simp at this
    rw [if_neg n1, if_neg n2]
  · intro hall
    have n1 : rows.filterMap PredRow.e = [] := by
      rw [List.filterMap_eq_nil_iff]
      intro r hr
      rw [hall r hr]
    have n2 : rows.filterMap PredRow.n = [] := by
      rw [List.filterMap_eq_nil_iff]
      intro r hr
      rw [hall r hr]
    rw [if_pos n1, if_pos n2]

/-- In a layout that is right every prediction is NaN. -/
private theorem mean_correct {sort : SortValues ι} (hs : IsSortValues sort) (mode : String)
    (hm : mode ∈ ["coherence", "preavg", "global_coherence", "distance", "all"]) (n : ℤ) (pairs : List (κ × κ))
    (data : κ → ι → CloudCase) (V : κ → Vec) (hX : ∀ p ∈ pairs, (V p.1).1 * (V p.2).2 - (V p.1).2 * (V p.2).1 ≠ 0)
    (f : Frame ι String ℝ) (hn : f.index.Nodup) (P : ι → Vec) (hP : ∀ l ∈ f.index, P l = posOf (tablePts f) l)
    (hd : ∀ p ∈ pairs, ∀ l ∈ f.index, ExactCase f.index P (V p.1) l (data p.1 l) ∧ ExactCase f.index P (V p.2) l (data p.2 l))
    (l : ι) (hl : l ∈ f.index) : meanPredict sort mode n pairs data f l = .ok ⟨none, none, []⟩ := by
  have hz : ∀ S : List ι, (∀ x ∈ S, P x = posOf (tablePts f) x) → meanDisp P (posOf (tablePts f)) S = 0 := by
    intro S hS
    have z : ∀ g : Vec → ℝ, (S.map fun l => g (P l) - g (posOf (tablePts f) l)).sum = 0 := by
      intro g
      apply List.sum_eq_zero
      intro x hx
      obtain ⟨k, hk, rfl⟩ := List.mem_map.1 hx
      rw [hS k hk, sub_self]
    unfold meanDisp
    rw [z Prod.fst, z Prod.snd, zero_div]; rfl
  have hone : ∀ p ∈ pairs, (predictedPosition sort (tablePts f) false l mode n (data p.1 l) (data p.2 l)).map (fun r => storeRow r.1) =
      .ok ((fun _ => ⟨none, none, []⟩ : κ × κ → PredRow) p) := by
    intro p hp
    obtain ⟨d1, d2⟩ := hd p hp l hl
    rw [← tablePts_index] at d1 d2
    obtain ⟨pos, s1, s2, e1, -, -, e3, -, -, e5⟩ := Reassign.C166_contamination hs (tablePts f) (by rw [tablePts_index]; exact hn) P l
      (by rw [tablePts_index]; exact hl) mode hm n _ _ (hX p hp) _ _ d1 d2
    rw [e1, e5 ?_]
    · rfl
    · right; right; left
      rw [hz _ (fun x hx => hP x (by rw [← tablePts_index]; exact e3 x hx)), hP l hl]
      simp [along]
  unfold meanPredict
  rw [mapM_ok_map hone]
  show Except.ok (meanRows _) = _
  rw [(meanRows_same _ (0, 0) ?_).2 ?_]
  · intro r hr
    obtain ⟨p, -, rfl⟩ := List.mem_map.1 hr
    exact Or.inr rfl
  · intro r hr
    obtain ⟨p, -, rfl⟩ := List.mem_map.1 hr
    rfl

/-- A layout that is right is confirmed. -/
private theorem points_correct {sort : SortValues ι} (hs : IsSortValues sort) (mode : String)
    (hm : mode ∈ ["coherence", "preavg", "global_coherence", "distance", "all"]) (n : ℤ) (pairs : List (κ × κ))
    (data : κ → ι → CloudCase) (V : κ → Vec) (hX : ∀ p ∈ pairs, (V p.1).1 * (V p.2).2 - (V p.1).2 * (V p.2).1 ≠ 0)
    (inv : ι → String) (f : Frame ι String ℝ) (hn : f.index.Nodup) (P : ι → Vec) (truth r : List (ι × ι)) (hr : r.Perm truth)
    (ht : WithinInverters inv f.index truth) (hP : ∀ p ∈ truth, P p.1 = posOf (coords "E" "N" f) p.2)
    (hd : ∀ p ∈ pairs, ∀ l ∈ f.index, ExactCase f.index P (V p.1) l (data p.1 l) ∧ ExactCase f.index P (V p.2) l (data p.2 l)) :
    PointsTo (meanPredict sort mode n pairs data) inv f truth r := by
  rintro f' ⟨h1, -, h3⟩ l hl
  have htm : ∀ l ∈ f.index, ∃ t, (l, t) ∈ truth := by
    intro l hl
    obtain ⟨p, hp, rfl⟩ := List.mem_map.1 (ht.1.1.mem_iff.2 hl)
    exact ⟨p.2, hp⟩
  refine ⟨_, mean_correct hs mode hm n pairs data V hX f' (by rw [h1]; exact hn) P ?_ (by rw [h1]; exact hd) l (by rw [h1]; exact hl), ?_, ?_⟩
  · intro k hk
    rw [h1] at hk
    obtain ⟨t, h⟩ := htm k hk
    rw [hP _ h, ← h3 _ (hr.mem_iff.2 h)]
    rfl
  · intro _
    obtain ⟨t, h⟩ := htm l hl
    exact ⟨t, h, hr.mem_iff.2 h⟩
  · intro h; simp [PredRow.hasNaN] at h

/-! ## C174 -/

/-- C174: a plan that is right is confirmed: with exact delays of all combiners in all windows, in every mode and with any number of
sites, the procedure reports that every combiner is where the plan says, and that nothing changed. -/
theorem C174_confirmed (lsa : LSA) (hl : IsLSA lsa) (nan : ℝ) {sort : SortValues ι} (hs : IsSortValues sort) (mode : String)
    (hm : mode ∈ ["coherence", "preavg", "global_coherence", "distance", "all"]) (n : ℤ) [DecidableEq κ] (keys : List κ) (hk : keys.Nodup)
    (V : κ → Vec) (data : κ → ι → CloudCase) (inv : ι → String) (f : Frame ι String ℝ) (hn : f.index.Nodup)
    (hcols : f.cols = ["E", "N"]) (hap : NamesApart inv f.index)
    (hd : ∀ k ∈ keys, ∀ l ∈ f.index, ExactCase f.index (posOf (coords "E" "N" f)) (V k) l (data k l)) :
    ∃ st, procLoop lsa nan (meanPredict sort mode n (cmvPairs 45 V keys) data) inv f 10 (procInit f) = .ok (some st) ∧
      (∀ p ∈ st.remap, p.1 = p.2) ∧ (∀ l ∈ f.index, posOf (coords "E" "N" st.layout) l = posOf (coords "E" "N" f) l) ∧
      st.changed = [] := by
  have hself : ∀ l, (l, l) ∈ f.index.map (fun l => (l, l)) ↔ l ∈ f.index := by simp
  have hw : WithinInverters inv f.index (f.index.map fun l => (l, l)) := by
    refine ⟨⟨by simp [Function.comp_def], by simp [Function.comp_def]⟩, ?_⟩
    intro p hp
    obtain ⟨l, -, rfl⟩ := List.mem_map.1 hp
    rfl
  have hpairs := (C176_pairs 45 (by norm_num) (by norm_num) V keys hk).2.1
  have hpt : ∀ r, r.Perm (f.index.map fun l => (l, l)) →
      PointsTo (meanPredict sort mode n (cmvPairs 45 V keys) data) inv f (f.index.map fun l => (l, l)) r := by
    intro r hr
    refine points_correct hs mode hm n _ data V (fun p hp => (hpairs p hp).2.2.2) inv f hn (posOf (coords "E" "N" f)) _ r hr hw ?_ ?_
    · intro p hp
      obtain ⟨l, -, rfl⟩ := List.mem_map.1 hp
      rfl
    · intro p hp l hl'
      exact ⟨hd _ (hpairs p hp).1 l hl', hd _ (hpairs p hp).2.1 l hl'⟩
  obtain ⟨st, e1, e2, e3, e4, -⟩ := C173_found lsa hl nan _ inv f hn hcols hap _ hw (hpt _ (List.Perm.refl _)) hpt
  refine ⟨st, e1, ?_, ?_, e4⟩
  · intro p hp
    obtain ⟨l, -, rfl⟩ := List.mem_map.1 (e2.mem_iff.1 hp)
    rfl
  · intro l hl'
    exact e3.2.2 _ ((hself l).2 hl')

/-! ## C175 -/

/-- C175 (partial: mode 'all', and every misplaced combiner must be displaced obliquely to both motions of some kept pair): combiners
mixed up within their inverters are all found, after at most two rounds, with exact delays. -/
theorem C175_found_partial (lsa : LSA) (hl : IsLSA lsa) (nan : ℝ) {sort : SortValues ι} (hs : IsSortValues sort) (n : ℤ)
    [DecidableEq κ] (keys : List κ) (hk : keys.Nodup) (V : κ → Vec) (data : κ → ι → CloudCase) (inv : ι → String)
    (f : Frame ι String ℝ) (hn : f.index.Nodup) (hcols : f.cols = ["E", "N"]) (hap : NamesApart inv f.index)
    (hdist : ∀ k ∈ f.index, ∀ l ∈ f.index, inv k = inv l → posOf (coords "E" "N" f) k = posOf (coords "E" "N" f) l → k = l)
    (truth : List (ι × ι)) (ht : WithinInverters inv f.index truth) (P : ι → Vec)
    (hP : ∀ p ∈ truth, P p.1 = posOf (coords "E" "N" f) p.2)
    (hd : ∀ k ∈ keys, ∀ l ∈ f.index, ExactCase f.index P (V k) l (data k l))
    (hobl : ∀ p ∈ truth, p.1 ≠ p.2 → ∃ w ∈ cmvPairs 45 V keys,
      along (P p.1 - posOf (coords "E" "N" f) p.1) (V w.1) ≠ 0 ∧ along (P p.1 - posOf (coords "E" "N" f) p.1) (V w.2) ≠ 0) :
    ∃ st, procLoop lsa nan (meanPredict sort "all" n (cmvPairs 45 V keys) data) inv f 10 (procInit f) = .ok (some st) ∧
      st.remap.Perm truth ∧ (∀ l ∈ f.index, posOf (coords "E" "N" st.layout) l = P l) ∧ st.changed = [] ∧ st.layouts.length ≤ 3 := by
  have hpairs := (C176_pairs 45 (by norm_num) (by norm_num) V keys hk).2.1
  have hd' : ∀ p ∈ cmvPairs 45 V keys, ∀ l ∈ f.index, ExactCase f.index P (V p.1) l (data p.1 l) ∧ ExactCase f.index P (V p.2) l (data p.2 l) :=
    fun p hp l hl' => ⟨hd _ (hpairs p hp).1 l hl', hd _ (hpairs p hp).2.1 l hl'⟩
  have htm : ∀ l ∈ f.index, ∃ t, (l, t) ∈ truth ∧ t ∈ f.index := by
    intro l hl'
    obtain ⟨p, hp, rfl⟩ := List.mem_map.1 (ht.1.1.mem_iff.2 hl')
    exact ⟨p.2, hp, ht.1.2.mem_iff.1 (List.mem_map.2 ⟨p, hp, rfl⟩)⟩
  have htu : ∀ {l a b : ι}, (l, a) ∈ truth → (l, b) ∈ truth → a = b := by
    intro l a b ha hb
    have hnd : (truth.map Prod.fst).Nodup := ht.1.1.nodup_iff.2 hn
    have := lastTarget_of_mem hnd ha
    rw [lastTarget_of_mem hnd hb] at this
    exact (Option.some.inj this).symm
  have hplan : PointsTo (meanPredict sort "all" n (cmvPairs 45 V keys) data) inv f truth (f.index.map fun l => (l, l)) := by
    rintro f' ⟨h1, -, h3⟩ l hl'
    have hpos : ∀ k ∈ f.index, posOf (tablePts f') k = posOf (coords "E" "N" f) k :=
      fun k hk' => h3 (k, k) (List.mem_map.2 ⟨k, hk', rfl⟩)
    have hix : (tablePts f').map Prod.fst = f.index := by rw [tablePts_index, h1]
    have hmix : MixedUp (tablePts f') f.index truth P := by
      refine ⟨by rw [hix]; exact fun _ h => h, ht.1, ?_, ?_⟩
      · intro p hp
        rw [hpos _ (ht.1.2.mem_iff.1 (List.mem_map.2 ⟨p, hp, rfl⟩)), hP p hp]
      · intro k hk1 hk2
        rw [hix] at hk1; exact absurd hk1 hk2
    have hchoose : ∀ w : κ × κ, ∃ row : PredRow, w ∈ cmvPairs 45 V keys →
        (predictedPosition sort (tablePts f') false l "all" n (data w.1 l) (data w.2 l)).map (fun r => storeRow r.1) = .ok row ∧
        (along (P l - posOf (coords "E" "N" f) l) (V w.1) ≠ 0 ∧ along (P l - posOf (coords "E" "N" f) l) (V w.2) ≠ 0 →
          row = ⟨some (P l).1, some (P l).2, []⟩) ∧
        (row = ⟨some (P l).1, some (P l).2, []⟩ ∨ row = ⟨none, none, []⟩) := by
      intro w
      by_cases hw : w ∈ cmvPairs 45 V keys
      · obtain ⟨d1, d2⟩ := hd' w hw l hl'
        obtain ⟨pos, full, e1, e2, e3⟩ := Reassign.predict_all hs n (tablePts f') (by rw [hix]; exact hn) f.index hn truth P hmix (V w.1) (V w.2)
          (hpairs w hw).2.2.2 l hl' (data w.1 l) (data w.2 l) (by rw [hix]; exact d1) (by rw [hix]; exact d2)
        rw [hpos l hl'] at e2 e3
        by_cases ho : along (P l - posOf (coords "E" "N" f) l) (V w.1) ≠ 0 ∧ along (P l - posOf (coords "E" "N" f) l) (V w.2) ≠ 0
        · refine ⟨⟨some (P l).1, some (P l).2, []⟩, fun _ => ⟨?_, fun _ => rfl, Or.inl rfl⟩⟩
          rw [e1, e2 ho.1 ho.2]; rfl
        · refine ⟨⟨none, none, []⟩, fun _ => ⟨?_, fun h => absurd h ho, Or.inr rfl⟩⟩
          rw [e1, e3 (by by_contra hc; push Not at hc; exact ho hc)]; rfl
      · exact ⟨⟨none, none, []⟩, fun h => absurd h hw⟩
    choose row hrow using hchoose
    have hpred : meanPredict sort "all" n (cmvPairs 45 V keys) data f' l = .ok (meanRows ((cmvPairs 45 V keys).map row)) := by
      unfold meanPredict
      rw [mapM_ok_map (fun w hw => (hrow w hw).1)]
      rfl
    have hsame := meanRows_same ((cmvPairs 45 V keys).map row) (P l) (by
      intro r hr
      obtain ⟨w, hw, rfl⟩ := List.mem_map.1 hr
      exact (hrow w hw).2.2)
    obtain ⟨t, ht1, ht2⟩ := htm l hl'
    refine ⟨_, hpred, ?_, ?_⟩
    · intro hnan
      by_cases hlt : l = t
      · subst hlt
        exact ⟨l, ht1, List.mem_map.2 ⟨l, hl', rfl⟩⟩
      · obtain ⟨w, hw, ho⟩ := hobl _ ht1 hlt
        rw [hsame.1 ⟨row w, List.mem_map.2 ⟨w, hw, rfl⟩, by rw [(hrow w hw).2.1 ho]; simp⟩] at hnan
        simp [PredRow.hasNaN] at hnan
    · intro hnan t' ht' k hk' hik hkt
      have : t' = t := htu ht' ht1
      subst this
      have hval : meanRows ((cmvPairs 45 V keys).map row) = ⟨some (P l).1, some (P l).2, []⟩ := by
        apply hsame.1
        by_contra hc
        push Not at hc
        rw [hsame.2 hc] at hnan
        simp [PredRow.hasNaN] at hnan
      rw [hval]
      simp only [Option.getD_some]
      rw [show ((P l).1, (P l).2) = P l from rfl, hP _ ht1]
      have h0 : pdist (posOf (coords "E" "N" f) t') (posOf (coords "E" "N" f) t') = 0 := by simp [pdist]
      simp only
      rw [h0]
      refine lt_of_le_of_ne (Real.sqrt_nonneg _) ?_
      intro hc
      have hc' := (Real.sqrt_eq_zero (by positivity)).1 hc.symm
      apply hkt
      refine hdist k hk' t' ht2 (hik.trans (ht.2 _ ht1)) ?_
      have q1 : ((posOf (coords "E" "N" f) t').1 - (posOf (coords "E" "N" f) k).1) = 0 := by
        nlinarith [sq_nonneg ((posOf (coords "E" "N" f) t').1 - (posOf (coords "E" "N" f) k).1), sq_nonneg ((posOf (coords "E" "N" f) t').2 - (posOf (coords "E" "N" f) k).2)]
      have q2 : ((posOf (coords "E" "N" f) t').2 - (posOf (coords "E" "N" f) k).2) = 0 := by
        nlinarith [sq_nonneg ((posOf (coords "E" "N" f) t').1 - (posOf (coords "E" "N" f) k).1), sq_nonneg ((posOf (coords "E" "N" f) t').2 - (posOf (coords "E" "N" f) k).2)]
      exact Prod.ext (by linarith) (by linarith)
  obtain ⟨st, e1, e2, e3, e4, e5⟩ := C173_found lsa hl nan _ inv f hn hcols hap truth ht hplan
    (fun r hr => points_correct hs "all" (by simp) n _ data V (fun p hp => (hpairs p hp).2.2.2) inv f hn P truth r hr ht hP hd')
  refine ⟨st, e1, e2, ?_, e4, e5⟩
  intro l hl'
  obtain ⟨t, ht1, -⟩ := htm l hl'
  rw [hP _ ht1]
  exact e3.2.2 _ ht1

/-- C175 violated: if every misplaced combiner is displaced at right angles to one of the motions of each kept pair, the procedure
confirms the wrong plan: it reports that every combiner is where the plan says, and that it has converged. -/
theorem C175_violated_confirms_wrong_plan (lsa : LSA) (hl : IsLSA lsa) (nan : ℝ) {sort : SortValues ι} (hs : IsSortValues sort) (n : ℤ)
    [DecidableEq κ] (keys : List κ) (hk : keys.Nodup) (V : κ → Vec) (data : κ → ι → CloudCase) (inv : ι → String)
    (f : Frame ι String ℝ) (hn : f.index.Nodup) (hcols : f.cols = ["E", "N"]) (hap : NamesApart inv f.index)
    (truth : List (ι × ι)) (ht : WithinInverters inv f.index truth) (P : ι → Vec)
    (hP : ∀ p ∈ truth, P p.1 = posOf (coords "E" "N" f) p.2)
    (hd : ∀ k ∈ keys, ∀ l ∈ f.index, ExactCase f.index P (V k) l (data k l))
    (hperp : ∀ p ∈ truth, ∀ w ∈ cmvPairs 45 V keys,
      along (P p.1 - posOf (coords "E" "N" f) p.1) (V w.1) = 0 ∨ along (P p.1 - posOf (coords "E" "N" f) p.1) (V w.2) = 0) :
    ∃ st, procLoop lsa nan (meanPredict sort "all" n (cmvPairs 45 V keys) data) inv f 10 (procInit f) = .ok (some st) ∧
      (∀ p ∈ st.remap, p.1 = p.2) ∧ st.changed = [] ∧ ((∃ p ∈ truth, p.1 ≠ p.2) → ¬ st.remap.Perm truth) := by
  have hpairs := (C176_pairs 45 (by norm_num) (by norm_num) V keys hk).2.1
  have hd' : ∀ p ∈ cmvPairs 45 V keys, ∀ l ∈ f.index, ExactCase f.index P (V p.1) l (data p.1 l) ∧ ExactCase f.index P (V p.2) l (data p.2 l) :=
    fun p hp l hl' => ⟨hd _ (hpairs p hp).1 l hl', hd _ (hpairs p hp).2.1 l hl'⟩
  have hw : WithinInverters inv f.index (f.index.map fun l => (l, l)) := by
    refine ⟨⟨by simp [Function.comp_def], by simp [Function.comp_def]⟩, ?_⟩
    intro p hp
    obtain ⟨l, -, rfl⟩ := List.mem_map.1 hp
    rfl
  have hpt : ∀ r, r.Perm (f.index.map fun l => (l, l)) →
      PointsTo (meanPredict sort "all" n (cmvPairs 45 V keys) data) inv f (f.index.map fun l => (l, l)) r := by
    rintro r hr f' ⟨h1, -, h3⟩ l hl'
    have hpos : ∀ k ∈ f.index, posOf (tablePts f') k = posOf (coords "E" "N" f) k :=
      fun k hk' => h3 (k, k) (hr.mem_iff.2 (List.mem_map.2 ⟨k, hk', rfl⟩))
    have hix : (tablePts f').map Prod.fst = f.index := by rw [tablePts_index, h1]
    have hmix : MixedUp (tablePts f') f.index truth P := by
      refine ⟨by rw [hix]; exact fun _ h => h, ht.1, ?_, ?_⟩
      · intro p hp
        rw [hpos _ (ht.1.2.mem_iff.1 (List.mem_map.2 ⟨p, hp, rfl⟩)), hP p hp]
      · intro k hk1 hk2
        rw [hix] at hk1; exact absurd hk1 hk2
    obtain ⟨q, hq, rfl⟩ := List.mem_map.1 (ht.1.1.mem_iff.2 hl')
    have hone : ∀ w ∈ cmvPairs 45 V keys, (predictedPosition sort (tablePts f') false q.1 "all" n (data w.1 q.1) (data w.2 q.1)).map
        (fun r => storeRow r.1) = .ok ((fun _ => ⟨none, none, []⟩ : κ × κ → PredRow) w) := by
      intro w hw'
      obtain ⟨d1, d2⟩ := hd' w hw' q.1 hl'
      obtain ⟨pos, full, e1, -, e3⟩ := Reassign.predict_all hs n (tablePts f') (by rw [hix]; exact hn) f.index hn truth P hmix (V w.1) (V w.2)
        (hpairs w hw').2.2.2 q.1 hl' (data w.1 q.1) (data w.2 q.1) (by rw [hix]; exact d1) (by rw [hix]; exact d2)
      rw [hpos q.1 hl'] at e3
      rw [e1, e3 (hperp q hq w hw')]
      rfl
    refine ⟨⟨none, none, []⟩, ?_, ?_, ?_⟩
    · unfold meanPredict
      rw [mapM_ok_map hone]
      show Except.ok (meanRows _) = _
      rw [(meanRows_same _ (0, 0) ?_).2 ?_]
      · intro r hr
        obtain ⟨p, -, rfl⟩ := List.mem_map.1 hr
        exact Or.inr rfl
      · intro r hr
        obtain ⟨p, -, rfl⟩ := List.mem_map.1 hr
        rfl
    · intro _
      exact ⟨q.1, List.mem_map.2 ⟨_, hl', rfl⟩, hr.mem_iff.2 (List.mem_map.2 ⟨_, hl', rfl⟩)⟩
    · intro h; simp [PredRow.hasNaN] at h
  obtain ⟨st, e1, e2, -, e4, -⟩ := C173_found lsa hl nan _ inv f hn hcols hap _ hw (hpt _ (List.Perm.refl _)) hpt
  have hid : ∀ p ∈ st.remap, p.1 = p.2 := by
    intro p hp
    obtain ⟨l, -, rfl⟩ := List.mem_map.1 (e2.mem_iff.1 hp)
    rfl
  refine ⟨st, e1, hid, e4, ?_⟩
  rintro ⟨p, hp, hne⟩ hperm
  exact hne (hid p (hperm.mem_iff.2 hp))

end exact

end SST.Props.FullProcess
