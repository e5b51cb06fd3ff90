import Verif.Model.RoundScore
import Verif.Props.Round
import Verif.Props.RoundPlant
import Verif.Props.ScoreTies

/-!
# Property C273: the variability score with rounding
-/

namespace SST.Round
open SST SST.Stats SST.Props.Ramps

/-- A value of the second list and the value of the first that it is matched with. -/
theorem score_step {z : List (ℝ × ℝ)} {d : ℝ} (hz : ∀ p ∈ z, |p.2 - p.1| ≤ d) (hp : ∀ p ∈ z, 0 ≤ p.1 ∧ 0 ≤ p.2) {q : ℝ × ℝ} (hq : q ∈ z) :
    ∃ r ∈ z.map Prod.fst, q.2 * exceed (z.map Prod.snd) q.2 ≤ 2 * (r * exceed (z.map Prod.fst) r) + d ∧
      ((z.map Prod.fst).Nodup → q.2 * exceed (z.map Prod.snd) q.2 ≤ r * exceed (z.map Prod.fst) r + d) := by
  classical
  have hr'' : q.2 ∈ z.map Prod.snd := List.mem_map_of_mem hq
  have r0 := (hp q hq).2
  obtain ⟨r, hr, hge, hcnt⟩ := match_value hz hq
  refine ⟨r, hr, ?_⟩
  obtain ⟨-, b2, -⟩ := exceed_between hr''
  obtain ⟨a1, -, a3⟩ := exceed_between hr
  have rn : 0 ≤ r := by
    obtain ⟨x, hx, rfl⟩ := List.mem_map.mp hr
    exact (hp x hx).1
  have hn : (0 : ℝ) < z.length := by exact_mod_cast List.length_pos_of_mem hq
  simp only [List.length_map] at a1 a3 b2
  have hK : ((z.map Prod.snd).countP (fun v => q.2 ≤ v) : ℝ) ≤ (z.map Prod.fst).countP (fun v => r ≤ v) := by exact_mod_cast hcnt
  have hK1 : (1 : ℝ) ≤ (z.map Prod.snd).countP (fun v => q.2 ≤ v) := by
    have : 0 < (z.map Prod.snd).countP (fun v => q.2 ≤ v) := List.countP_pos_iff.mpr ⟨q.2, hr'', by simp⟩
    exact_mod_cast this
  have hKn : ((z.map Prod.snd).countP (fun v => q.2 ≤ v) : ℝ) ≤ z.length := by
    have := List.countP_le_length (p := fun v => decide (q.2 ≤ v)) (l := z.map Prod.snd)
    rw [List.length_map] at this
    exact_mod_cast this
  have ε0 : 0 ≤ d := (abs_nonneg _).trans (hz q hq)
  generalize ((z.map Prod.snd).countP (fun v => q.2 ≤ v) : ℝ) = K at *
  generalize ((z.map Prod.fst).countP (fun v => r ≤ v) : ℝ) = L at *
  generalize exceed (z.map Prod.fst) r = X at *
  generalize exceed (z.map Prod.snd) q.2 = Y at *
  generalize (z.length : ℝ) = n at *
  generalize q.2 = s at *
  have s1 : s * (Y * n) ≤ s * (K - 1) := mul_le_mul_of_nonneg_left b2 r0
  have s2 : (s - d) * (K - 1) ≤ r * (K - 1) := mul_le_mul_of_nonneg_right hge (by linarith)
  have s3 : r * (K - 1) ≤ r * (L - 1) := mul_le_mul_of_nonneg_left (by linarith) rn
  have s4 : d * (K - 1) ≤ d * n := mul_le_mul_of_nonneg_left (by linarith) ε0
  constructor
  · refine le_of_mul_le_mul_right ?_ hn
    have := mul_le_mul_of_nonneg_left a1 rn
    nlinarith
  · intro nd
    have := a3 nd
    refine le_of_mul_le_mul_right ?_ hn
    have e : r * (X * n) = r * (L - 1) := by rw [this]
    nlinarith

section
variable {u : ℝ} {A : Arith}

theorem scoreRawF_eq (A : Arith) (s : List (Option ℝ)) (tau : ℕ) : scoreRawF A s tau =
    omax (((((diffsF A s tau).filterMap id).map fun (v : ℝ) => |v|).map fun (r : ℝ) =>
      A.fl (r * A.fl (1 - A.fl (1 - exceed (((diffsF A s tau).filterMap id).map fun (v : ℝ) => |v|) r)))).map some) := by
  unfold scoreRawF
  simp only
  have hx : ((diffsF A s tau).map (Option.map fun (v : ℝ) => |v|)).filterMap id = ((diffsF A s tau).filterMap id).map fun (v : ℝ) => |v| := filterMap_omap _ _
  unfold omax
  rw [filterMap_some, filterMap_omap, hx]
  by_cases h : (diffsF A s tau).filterMap id = []
  · simp only [h, List.map_nil]
  · have : ∀ r, rankPct ((diffsF A s tau).map (Option.map fun (v : ℝ) => |v|)) r = 1 - exceed (((diffsF A s tau).filterMap id).map fun (v : ℝ) => |v|) r := by
      intro r
      rw [← hx, ← one_sub_rank _ _ (by rw [hx]; simpa using h)]
      ring
    simp only [this]

/-- The rounded product. -/
private theorem product_abs (h : FloatLike u A) (hu : u ≤ 1 / 8) {r e : ℝ} (r0 : 0 ≤ r) (e0 : 0 ≤ e) (e1 : e ≤ 1) :
    |A.fl (r * A.fl (1 - A.fl (1 - e))) - r * e| ≤ 4 * u * r := by
  have h0 := u_nonneg h.rounds
  have a := h.rounds (1 - e)
  rw [abs_of_nonneg (by linarith : 0 ≤ 1 - e)] at a
  have a' : |A.fl (1 - e) - (1 - e)| ≤ u := a.trans (by nlinarith)
  clear a
  generalize A.fl (1 - e) = p at *
  have b := h.rounds (1 - p)
  rw [abs_le] at a'
  have bp : |1 - p| ≤ 1 + u := by rw [abs_le]; constructor <;> linarith [a'.1, a'.2]
  have b' : |A.fl (1 - p) - (1 - p)| ≤ u * (1 + u) := b.trans (mul_le_mul_of_nonneg_left bp h0)
  clear b
  generalize A.fl (1 - p) = q at *
  rw [abs_le] at b'
  have uu : u * u ≤ u * (1 / 8) := mul_le_mul_of_nonneg_left hu h0
  have qe : |q - e| ≤ 2.2 * u := by rw [abs_le]; constructor <;> nlinarith [a'.1, a'.2, b'.1, b'.2]
  have qa : |q| ≤ 1.3 := by
    rw [abs_le] at qe ⊢; constructor <;> linarith [qe.1, qe.2]
  have c := h.rounds (r * q)
  rw [abs_mul, abs_of_nonneg r0] at c
  have c1 : r * |q| ≤ r * 1.3 := mul_le_mul_of_nonneg_left qa r0
  have c2 := mul_le_mul_of_nonneg_left c1 h0
  have c3 : |r * q - r * e| ≤ r * (2.2 * u) := by
    rw [← mul_sub, abs_mul, abs_of_nonneg r0]; exact mul_le_mul_of_nonneg_left qe r0
  calc _ = |(A.fl (r * q) - r * q) + (r * q - r * e)| := by ring_nf
    _ ≤ |A.fl (r * q) - r * q| + |r * q - r * e| := abs_add_le _ _
    _ ≤ _ := by nlinarith [mul_nonneg h0 r0]

/-- Rounded ramp of two rounded samples. -/
private theorem ramp_abs (h : FloatLike u A) (hu : u ≤ 1 / 8) {a b M : ℝ} (ha : |a| ≤ M) (hb : |b| ≤ M) :
    abs (|A.fl (A.fl a - A.fl b)| - |a - b|) ≤ 5 * u * M := by
  have h0 := u_nonneg h.rounds
  have M0 : 0 ≤ M := (abs_nonneg a).trans ha
  refine (abs_abs_sub_abs_le _ _).trans ?_
  have a' := (h.rounds a).trans (mul_le_mul_of_nonneg_left ha h0)
  have b' := (h.rounds b).trans (mul_le_mul_of_nonneg_left hb h0)
  have c := h.rounds (A.fl a - A.fl b)
  have d : |A.fl a - A.fl b - (a - b)| ≤ 2 * (u * M) := by
    calc _ = |(A.fl a - a) - (A.fl b - b)| := by ring_nf
      _ ≤ |A.fl a - a| + |A.fl b - b| := abs_sub _ _
      _ ≤ _ := by linarith
  have e : |A.fl a - A.fl b| ≤ 2.25 * M := by
    calc _ = |(A.fl a - A.fl b - (a - b)) + (a - b)| := by ring_nf
      _ ≤ |A.fl a - A.fl b - (a - b)| + |a - b| := abs_add_le _ _
      _ ≤ 2 * (u * M) + (|a| + |b|) := add_le_add d (abs_sub _ _)
      _ ≤ _ := by nlinarith [mul_le_mul_of_nonneg_right hu M0]
  have f := c.trans (mul_le_mul_of_nonneg_left e h0)
  calc _ = |(A.fl (A.fl a - A.fl b) - (A.fl a - A.fl b)) + (A.fl a - A.fl b - (a - b))| := by ring_nf
    _ ≤ |A.fl (A.fl a - A.fl b) - (A.fl a - A.fl b)| + |A.fl a - A.fl b - (a - b)| := abs_add_le _ _
    _ ≤ u * (2.25 * M) + 2 * (u * M) := add_le_add f d
    _ ≤ _ := by nlinarith [mul_nonneg h0 M0]

theorem rows_map (f : ℝ → ℝ) (b e : List (Option ℝ)) :
    rowsOf (b.map (Option.map f)) (e.map (Option.map f)) = (rowsOf b e).map (Option.map fun p => (f p.1, f p.2)) := by
  unfold rowsOf
  rw [List.zipWith_map, List.map_zipWith]
  congr 1
  funext x y
  cases x <;> cases y <;> rfl

theorem rows_mem {b e : List (Option ℝ)} {p : ℝ × ℝ} (h : p ∈ (rowsOf b e).filterMap id) : some p.1 ∈ e ∧ some p.2 ∈ b := by
  simp only [List.mem_filterMap, id, exists_eq_right] at h
  unfold rowsOf at h
  induction e generalizing b with
  | nil => simp at h
  | cons x e ih =>
    cases b with
    | nil => simp at h
    | cons y b =>
      simp only [List.zipWith_cons_cons, List.mem_cons] at h
      rcases h with h | h
      · cases x <;> cases y <;> simp at h
        subst h
        simp
      · obtain ⟨h1, h2⟩ := ih h
        exact ⟨List.mem_cons_of_mem _ h1, List.mem_cons_of_mem _ h2⟩

/-- The magnitudes of the ramps, exact and rounded, in pairs. -/
private theorem pairs (h : FloatLike u A) (hu : u ≤ 1 / 8) (s : List (Option ℝ)) (tau : ℕ) {M : ℝ} (hM : ∀ x, some x ∈ s → |x| ≤ M) :
    ∃ z : List (ℝ × ℝ), (∀ p ∈ z, |p.2 - p.1| ≤ 5 * u * M) ∧ (∀ p ∈ z, 0 ≤ p.1 ∧ 0 ≤ p.2) ∧ (∀ p ∈ z, p.1 ≤ 2 * M) ∧ (z ≠ [] → 0 ≤ M) ∧
      (ramps s tau).map (fun x => |x|) = z.map Prod.fst ∧
      ((diffsF A (s.map (Option.map A.fl)) tau).filterMap id).map (fun x => |x|) = z.map Prod.snd := by
  refine ⟨((rowsOf s (s.drop tau)).filterMap id).map fun p => (|p.1 - p.2|, |A.fl (A.fl p.1 - A.fl p.2)|), ?_, ?_, ?_, ?_, ?_, ?_⟩
  · intro q hq
    obtain ⟨p, hp, rfl⟩ := List.mem_map.mp hq
    obtain ⟨h1, h2⟩ := rows_mem hp
    exact ramp_abs h hu (hM _ (List.mem_of_mem_drop h1)) (hM _ h2)
  · intro q hq
    obtain ⟨p, hp, rfl⟩ := List.mem_map.mp hq
    exact ⟨abs_nonneg _, abs_nonneg _⟩
  · intro q hq
    obtain ⟨p, hp, rfl⟩ := List.mem_map.mp hq
    obtain ⟨h1, h2⟩ := rows_mem hp
    have a := abs_sub p.1 p.2
    have b := hM _ (List.mem_of_mem_drop h1)
    have c := hM _ h2
    simp only
    linarith
  · intro hne
    obtain ⟨q, hq⟩ := List.exists_mem_of_ne_nil _ hne
    obtain ⟨p, hp, rfl⟩ := List.mem_map.mp hq
    exact (abs_nonneg _).trans (hM _ (rows_mem hp).2)
  · rw [← diffs_present, diffs_rows, List.map_map, List.map_map]; rfl
  · rw [diffsF_rows, ← List.map_drop, rows_map, List.map_map, List.map_map]
    have : ((rowsOf s (s.drop tau)).map (Option.map fun p => (A.fl p.1, A.fl p.2))).filterMap id = ((rowsOf s (s.drop tau)).filterMap id).map fun p => (A.fl p.1, A.fl p.2) := by
      rw [List.filterMap_map, List.map_filterMap]; rfl
    rw [this, List.map_map]; rfl

/-- C273 (the part that holds): the score with rounding is at most twice the exact one and at least half of it, apart from a few roundings of the largest
sample; if the magnitudes of the ramps keep some distance from each other, it is right to within rounding. -/
theorem C273_bound_partial (h : FloatLike u A) (hu : u ≤ 1 / 8) (t : List ℝ) (s : List (Option ℝ)) (tau : ℕ) {M : ℝ} (hM : ∀ x, some x ∈ s → |x| ≤ M) :
    (scoreRawF A (s.map (Option.map A.fl)) tau = none ↔ variabilityScore t s tau false false = .ok none) ∧
    ∀ v v', variabilityScore t s tau false false = .ok (some v) → scoreRawF A (s.map (Option.map A.fl)) tau = some v' →
      v' ≤ 2 * v + 16 * u * M ∧ v ≤ 2 * v' + 26 * u * M ∧
      (((ramps s tau).map fun x => |x|).Pairwise (fun a b => 10 * u * M < |a - b|) → |v' - v| ≤ 16 * u * M) := by
  have h0 := u_nonneg h.rounds
  obtain ⟨o, ho, hnone, hsome⟩ := C57_maximum t s tau false (Or.inl rfl)
  obtain ⟨z, hz, hp, h2M, hM0, e1, e2⟩ := pairs h hu s tau hM
  rw [ho, scoreRawF_eq, e2]
  constructor
  · rw [omax_eq_none, filterMap_some, Except.ok.injEq, hnone]
    constructor
    · intro hh
      have : z = [] := by simpa using hh
      rw [this] at e1
      simpa using e1
    · intro hh
      rw [hh] at e1
      have : z = [] := by simpa using e1.symm
      simp [this]
  intro v v' hv hv'
  obtain ⟨⟨r0, hr0, hv0⟩, hmax⟩ := (hsome v).1 (by cases hv; rfl)
  rw [omax_eq_some, filterMap_some] at hv'
  obtain ⟨hv1, hmax'⟩ := hv'
  -- the exact maximum
  have hm : ∀ r ∈ z.map Prod.fst, r * exceed (z.map Prod.fst) r ≤ v := by
    intro r hr
    rw [← e1] at hr
    obtain ⟨x, hx, rfl⟩ := List.mem_map.mp hr
    rw [← e1]
    exact hmax x hx
  have hmem : ∃ q ∈ z, v = q.1 * exceed (z.map Prod.fst) q.1 := by
    have : |r0| ∈ z.map Prod.fst := by rw [← e1]; exact List.mem_map_of_mem hr0
    obtain ⟨q, hq, hq'⟩ := List.mem_map.mp this
    exact ⟨q, hq, by rw [hv0, hq', e1]⟩
  -- the rounded products
  have hprod : ∀ q ∈ z, |A.fl (q.2 * A.fl (1 - A.fl (1 - exceed (z.map Prod.snd) q.2))) - q.2 * exceed (z.map Prod.snd) q.2| ≤ 10.5 * (u * M) := by
    intro q hq
    have hm' : q.2 ∈ z.map Prod.snd := List.mem_map_of_mem hq
    obtain ⟨x0, x1⟩ := exceed_bounds hm'
    have hn : (0 : ℝ) < (z.map Prod.snd).length := by exact_mod_cast List.length_pos_of_mem hm'
    have x1' : exceed (z.map Prod.snd) q.2 ≤ 1 := x1.trans ((div_le_one hn).mpr (by linarith))
    refine (product_abs h hu (hp q hq).2 x0 x1').trans ?_
    have a := hz q hq
    have M0 := hM0 (List.ne_nil_of_mem hq)
    rw [abs_le] at a
    have uM : u * M ≤ 1 / 8 * M := mul_le_mul_of_nonneg_right hu M0
    have q2 : q.2 ≤ 2.625 * M := by linarith [h2M q hq, a.2]
    calc 4 * u * q.2 ≤ 4 * u * (2.625 * M) := mul_le_mul_of_nonneg_left q2 (by linarith)
      _ = _ := by ring
  obtain ⟨q, hq, hvq⟩ := hmem
  rw [List.mem_map] at hv1
  obtain ⟨r', hr', hv''⟩ := hv1
  obtain ⟨q', hq', rfl⟩ := List.mem_map.mp hr'
  have p1 := hprod q' hq'
  rw [hv''] at p1
  rw [abs_le] at p1
  obtain ⟨r, hr, s1, s2⟩ := score_step hz hp hq'
  have m1 := hm r hr
  -- the other way round
  have hz' : ∀ p ∈ z.map Prod.swap, |p.2 - p.1| ≤ 5 * u * M := by
    intro p hp'
    obtain ⟨w, hw, rfl⟩ := List.mem_map.mp hp'
    rw [abs_sub_comm]; exact hz w hw
  have hpp : ∀ p ∈ z.map Prod.swap, 0 ≤ p.1 ∧ 0 ≤ p.2 := by
    intro p hp'
    obtain ⟨w, hw, rfl⟩ := List.mem_map.mp hp'
    exact (hp w hw).symm
  obtain ⟨y, hy, w1, w2⟩ := score_step hz' hpp (q := q.swap) (List.mem_map_of_mem hq)
  have f1 : (z.map Prod.swap).map Prod.fst = z.map Prod.snd := by rw [List.map_map]; rfl
  have f2 : (z.map Prod.swap).map Prod.snd = z.map Prod.fst := by rw [List.map_map]; rfl
  rw [f1] at hy w1 w2
  rw [f2, Prod.snd_swap, ← hvq] at w1 w2
  obtain ⟨y', hy', rfl⟩ := List.mem_map.mp hy
  have p2 := hprod y' hy'
  rw [abs_le] at p2
  have m2 := hmax' _ (List.mem_map_of_mem (f := fun r => A.fl (r * A.fl (1 - A.fl (1 - exceed (z.map Prod.snd) r)))) hy)
  have uM0 : 0 ≤ u * M := mul_nonneg h0 (hM0 (List.ne_nil_of_mem hq))
  refine ⟨by linarith [p1.1, p1.2], by linarith [p2.1, p2.2], ?_⟩
  intro hsep
  rw [e1, List.pairwise_map] at hsep
  have nd1 : (z.map Prod.fst).Nodup := by
    rw [List.Nodup, List.pairwise_map]
    refine hsep.imp fun {a b} hab e => ?_
    rw [e, sub_self, abs_zero] at hab
    linarith
  have nd2 : (z.map Prod.snd).Nodup := by
    rw [List.Nodup, List.pairwise_map]
    refine hsep.imp_of_mem fun {a b} ha hb hab e => ?_
    have a1 := abs_le.mp (hz a ha)
    have b1 := abs_le.mp (hz b hb)
    rw [e] at a1
    have : |a.1 - b.1| ≤ 10 * u * M := by rw [abs_le]; constructor <;> linarith [a1.1, a1.2, b1.1, b1.2]
    linarith
  have t1 := s2 nd1
  have t2 := w2 nd2
  rw [abs_le]
  constructor <;> linarith [p1.1, p1.2, p2.1, p2.2]
end

/-! ## The violation -/

/-- A number with at most 53 digits is not changed. -/
private theorem even_fix {x : ℝ} {k n : ℤ} (hx : x = n * 2 ^ (k - 52)) (h1 : (2 : ℝ) ^ k ≤ |x|) (h2 : |x| < 2 ^ (k + 1)) : even53 x = x := by
  have p : (2 : ℝ) ^ (k - 52) ≠ 0 := (zpow_pos two_pos _).ne'
  rw [even53_eq h1 h2 (n := n), ← hx]
  rw [hx, mul_div_cancel_right₀ _ p, nearestEven_int]

theorem nearestEven_near {z : ℝ} {n : ℤ} (h : |z - n| < 1 / 2) : nearestEven z = n := by
  rw [abs_lt] at h
  unfold nearestEven
  rw [if_neg, round_eq, Int.floor_eq_iff]
  · constructor <;> linarith [h.1, h.2]
  · intro e
    have h1 : (-1 : ℝ) < ⌊z⌋ - n := by linarith [h.1]
    have h2 : (⌊z⌋ - n : ℝ) < 0 := by linarith [h.2]
    have h1' : (-1 : ℤ) < ⌊z⌋ - n := by exact_mod_cast h1
    have h2' : (⌊z⌋ - n : ℤ) < 0 := by exact_mod_cast h2
    omega

/-- C273 fails: with float64 the score of the decimals 0.1, 0.2, 0.3 is almost twice the exact one, for the two ramps are no longer equal. -/
theorem C273_violated (t : List ℝ) : variabilityScore t [some 0.1, some 0.2, some 0.3] 1 false false = .ok (some 0.025) ∧
    ∃ v', scoreRawF ⟨even53, sumEven⟩ ([some 0.1, some 0.2, some 0.3].map (Option.map even53)) 1 = some v' ∧ 0.0499 ≤ v' := by
  classical
  constructor
  · obtain ⟨o, ho, -, h2⟩ := C57_maximum t [some 0.1, some 0.2, some 0.3] 1 false (Or.inl rfl)
    rw [ho]
    have hr : ramps [some 0.1, some 0.2, some 0.3] 1 = [0.1, 0.1] := by
      rw [← diffs_present]
      simp [diffs, osub]
      norm_num
    have he : exceed [0.1, 0.1] 0.1 = 1 / 4 := by
      unfold exceed
      simp
      norm_num
    have ha : |(0.1 : ℝ)| = 0.1 := abs_of_pos (by norm_num)
    congr 1
    rw [h2, hr]
    simp only [List.map_cons, List.map_nil, ha, he, List.mem_cons, List.not_mem_nil, or_false, or_self, exists_eq_left, forall_eq]
    norm_num [ha, he]
  · have a1 : even53 0.1 = 7205759403792794 * 2 ^ (-56 : ℤ) := by
      rw [even53_eq (k := -4) (n := 7205759403792794)]
      · norm_num
      · rw [abs_of_pos (by norm_num)]; norm_num
      · rw [abs_of_pos (by norm_num)]; norm_num
      · refine nearestEven_near ?_
        rw [abs_lt]; constructor <;> norm_num
    have a2 : even53 0.2 = 7205759403792794 * 2 ^ (-55 : ℤ) := by
      rw [even53_eq (k := -3) (n := 7205759403792794)]
      · norm_num
      · rw [abs_of_pos (by norm_num)]; norm_num
      · rw [abs_of_pos (by norm_num)]; norm_num
      · refine nearestEven_near ?_
        rw [abs_lt]; constructor <;> norm_num
    have a3 : even53 0.3 = 5404319552844595 * 2 ^ (-54 : ℤ) := by
      rw [even53_eq (k := -2) (n := 5404319552844595)]
      · norm_num
      · rw [abs_of_pos (by norm_num)]; norm_num
      · rw [abs_of_pos (by norm_num)]; norm_num
      · refine nearestEven_near ?_
        rw [abs_lt]; constructor <;> norm_num
    have d1 : even53 (7205759403792794 * 2 ^ (-55 : ℤ) - 7205759403792794 * 2 ^ (-56 : ℤ)) = 7205759403792794 * 2 ^ (-56 : ℤ) := by
      rw [even_fix (k := -4) (n := 7205759403792794)]
      · norm_num
      · norm_num
      · rw [abs_of_pos (by norm_num)]; norm_num
      · rw [abs_of_pos (by norm_num)]; norm_num
    have d2 : even53 (5404319552844595 * 2 ^ (-54 : ℤ) - 7205759403792794 * 2 ^ (-55 : ℤ)) = 7205759403792792 * 2 ^ (-56 : ℤ) := by
      rw [even_fix (k := -4) (n := 7205759403792792)]
      · norm_num
      · norm_num
      · rw [abs_of_pos (by norm_num)]; norm_num
      · rw [abs_of_pos (by norm_num)]; norm_num
    have hh : even53 (1 / 2) = 1 / 2 := even_fix (k := -1) (n := 2 ^ 52) (by norm_num) (by rw [abs_of_pos] <;> norm_num) (by rw [abs_of_pos] <;> norm_num)
    have d3 : even53 (7205759403792792 * 2 ^ (-56 : ℤ) * (1 / 2)) = 7205759403792792 * 2 ^ (-57 : ℤ) := by
      rw [even_fix (k := -5) (n := 7205759403792792)]
      · norm_num
      · norm_num
      · rw [abs_of_pos (by norm_num)]; norm_num
      · rw [abs_of_pos (by norm_num)]; norm_num
    have hL : ((diffsF ⟨even53, sumEven⟩ ([some 0.1, some 0.2, some 0.3].map (Option.map even53)) 1).filterMap id).map (fun v => |v|) =
        [7205759403792794 * 2 ^ (-56 : ℤ), 7205759403792792 * 2 ^ (-56 : ℤ)] := by
      simp only [List.map_cons, List.map_nil, Option.map_some, a1, a2, a3, diffsF, List.drop_succ_cons, List.drop_zero, List.zipWith_cons_cons, osubF, Option.bind_some, d1, d2]
      simp [abs_of_pos]
    have he : exceed [7205759403792794 * 2 ^ (-56 : ℤ), 7205759403792792 * 2 ^ (-56 : ℤ)] (7205759403792792 * 2 ^ (-56 : ℤ)) = 1 / 2 := by
      unfold exceed
      simp
      norm_num
    rw [scoreRawF_eq, hL]
    generalize hr : ((([7205759403792794 * 2 ^ (-56 : ℤ), 7205759403792792 * 2 ^ (-56 : ℤ)] : List ℝ).map fun (r : ℝ) => even53 (r * even53 (1 - even53 (1 - exceed [7205759403792794 * 2 ^ (-56 : ℤ), 7205759403792792 * 2 ^ (-56 : ℤ)] r))))) = l
    have hm : 7205759403792792 * 2 ^ (-57 : ℤ) ∈ l := by
      rw [← hr]
      refine List.mem_map.mpr ⟨7205759403792792 * 2 ^ (-56 : ℤ), by simp, ?_⟩
      rw [he, show (1 - 1 / 2 : ℝ) = 1 / 2 by norm_num, hh, show (1 - 1 / 2 : ℝ) = 1 / 2 by norm_num, hh, d3]
    cases ho : omax (l.map some) with
    | none =>
      rw [omax_eq_none, filterMap_some] at ho
      rw [ho] at hm
      simp at hm
    | some v' =>
      refine ⟨v', rfl, ?_⟩
      rw [omax_eq_some, filterMap_some] at ho
      exact le_trans (by norm_num) (ho.2 _ hm)

/-- The hypotheses of C273 hold for float64 and an hour with a cloud and a gap. -/
example : FloatLike (2 ^ (-53 : ℤ)) ⟨even53, sumEven⟩ ∧ (2 : ℝ) ^ (-53 : ℤ) ≤ 1 / 8 ∧
    (∀ x, some x ∈ ([some 800, some 350, none, some 790, some 810] : List (Option ℝ)) → |x| ≤ 1000) ∧
    ((ramps ([some 800, some 350, none, some 790, some 810] : List (Option ℝ)) 1).map fun x => |x|).Pairwise (fun a b => 10 * (2 ^ (-53 : ℤ)) * 1000 < |a - b|) := by
  refine ⟨floatEven, by norm_num, ?_, ?_⟩
  · intro x hx
    simp only [List.mem_cons, Option.some.injEq, reduceCtorEq, List.not_mem_nil, or_false, false_or] at hx
    rcases hx with rfl | rfl | rfl | rfl <;> rw [abs_of_pos] <;> norm_num
  · rw [← diffs_present]
    norm_num [diffs, osub]
    simp only [List.filterMap_cons, List.filterMap_nil, List.map_cons, List.map_nil, abs_neg]
    norm_num [abs_of_pos]

end SST.Round
