import Verif.Spec.Subset
import Verif.Props.Cmv

/-!
# C233: a fan of directions is found

`optimum_subset` is there to hand cloud vectors of many directions to the field analysis.  If the vectors contain a fan of `n` directions
spaced by π/n, the chosen ones form such a fan.
-/

namespace SST.Cmv
open SST SST.Spec SST.Spatial SST.Field

theorem axisCos_le_one (v : Vec) (θ : ℝ) : axisCos v θ ≤ 1 := by
  unfold axisCos
  refine div_le_one_of_le₀ ?_ (Real.sqrt_nonneg _)
  refine Real.abs_le_sqrt ?_
  nlinarith [sq_nonneg (v.1 * Real.sin θ - v.2 * Real.cos θ), Real.sin_sq_add_cos_sq θ, mul_self_nonneg v.1, mul_self_nonneg v.2,
    congrArg (fun t => v.1 ^ 2 * t) (Real.sin_sq_add_cos_sq θ), congrArg (fun t => v.2 ^ 2 * t) (Real.sin_sq_add_cos_sq θ)]

theorem subsetCost_axisCos (vs : List Vec) (n : ℕ) (a : ℝ) (i j : ℕ) :
    subsetCost vs n a i j = -axisCos ((vs[j]?).getD (0, 0)) (i / n * Real.pi + a) := by
  unfold subsetCost axisCos dot magnitude
  simp only
  generalize (i : ℝ) / n * Real.pi + a = θ
  rw [div_mul_eq_mul_div, div_mul_eq_mul_div, ← add_div, abs_div, abs_of_nonneg (Real.sqrt_nonneg _)]

theorem sum_one_short (l : List ℝ) (hl : ∀ x ∈ l, x ≤ 1) (x : ℝ) (hx : x ∈ l) : l.sum - x ≤ l.length - 1 := by
  induction l with
  | nil => simp at hx
  | cons y l ih =>
    have hs : ∀ l : List ℝ, (∀ x ∈ l, x ≤ 1) → l.sum ≤ l.length := by
      intro l
      induction l with
      | nil => simp
      | cons z l ih' =>
        intro h
        have h1 := h z (by simp)
        have h2 := ih' fun x hx => h x (by simp [hx])
        simp only [List.sum_cons, List.length_cons, Nat.cast_add, Nat.cast_one]
        linarith
    rcases List.mem_cons.1 hx with rfl | hx
    · have := hs l fun z hz => hl z (by simp [hz])
      simp only [List.sum_cons, List.length_cons, Nat.cast_add, Nat.cast_one]
      linarith
    · have h1 := hl y (by simp)
      have h2 := ih (fun z hz => hl z (by simp [hz])) hx
      simp only [List.sum_cons, List.length_cons, Nat.cast_add, Nat.cast_one]
      linarith

theorem rows_range {n m : ℕ} {r c : List ℕ} (h : IsMatching n m r c) (hnm : n ≤ m) : r = List.range n := by
  have hlen : r.length = n := by rw [h.rows_len]; omega
  have hp : r.Perm (List.range n) := by
    refine (List.subperm_of_subset (h.rows_sorted.imp ne_of_lt) fun i hi => List.mem_range.2 (h.rows_lt i hi)).perm_of_length_le ?_
    rw [List.length_range, hlen]
  exact hp.eq_of_pairwise (fun a b _ _ h1 h2 => absurd (h1.trans h2) (lt_irrefl _)) h.rows_sorted List.pairwise_lt_range

/-- C233: if the vectors contain `n` directions spaced by π/n up to the part `ε` in |cos|, and the minimiser comes within `tol` of the best angle, then
`optimum_subset` returns `n` distinct vectors, the `k`-th of which follows the direction `a' + k π/n` up to the part `n ε + tol`. -/
theorem C233_near (lsa : Field.LSA) (hl : IsLSA lsa) (tol : ℝ) (shgo : (ℝ → ℝ) → ℝ → ℝ → ℝ) (hsh : MinimizerWithin tol shgo) (vs : List Vec) (n : ℕ) (hn : 0 < n)
    (hv : ∀ v ∈ vs, v ≠ 0) (a ε : ℝ) (hfan : HasFan vs n a ε) :
    ∃ ix a', optimumSubset lsa shgo vs n = .ok ix ∧ ix.length = n ∧ ix.Nodup ∧
      ∀ k < n, ∃ j v, ix[k]? = some j ∧ vs[j]? = some v ∧ 1 - (n * ε + tol) ≤ axisCos v (k / n * Real.pi + a') := by
  obtain ⟨g, hg, hgv⟩ := hfan
  have hglt : ∀ k < n, g k < vs.length := fun k hk => by
    obtain ⟨v, h, -⟩ := hgv k hk
    exact (List.getElem?_eq_some_iff.1 h).1
  have hgm : IsMatching n vs.length (List.range n) ((List.range n).map g) := by
    have hnd : ((List.range n).map g).Nodup :=
      List.Nodup.map_on (fun x hx y hy => hg x (List.mem_range.1 hx) y (List.mem_range.1 hy)) List.nodup_range
    have hle : n ≤ vs.length := by
      have hsub : ((List.range n).map g).Subperm (List.range vs.length) := List.subperm_of_subset hnd (by
        intro j hj
        obtain ⟨k, hk, rfl⟩ := List.mem_map.1 hj
        exact List.mem_range.2 (hglt k (List.mem_range.1 hk)))
      simpa using hsub.length_le
    refine ⟨List.pairwise_lt_range, fun i hi => List.mem_range.1 hi, hnd, ?_, ?_, ?_⟩
    · intro j hj
      obtain ⟨k, hk, rfl⟩ := List.mem_map.1 hj
      exact hglt k (List.mem_range.1 hk)
    · simp; omega
    · simp; omega
  have hle : n ≤ vs.length := by
    have := hgm.cols_len
    simp at this
    omega
  have hpi : 0 < Real.pi / n := by have := Real.pi_pos; positivity
  have hmin := hsh (fun a => (calcCost lsa vs n a).1) 0 (Real.pi / n) (calcCost_continuous lsa hl vs n) hpi.le
  set b := shgo (fun a => (calcCost lsa vs n a).1) 0 (Real.pi / n) with hb
  have hrun : optimumSubset lsa shgo vs n = .ok (calcCost lsa vs n b).2 := by
    unfold optimumSubset
    rw [if_neg (by omega), if_neg (fun h : ((0, 0) : Vec) ∈ vs => hv _ h rfl)]
  obtain ⟨hm, -⟩ := hl n vs.length (subsetCost vs n b)
  set ix := (calcCost lsa vs n b).2 with hix
  have hixe : (lsa n vs.length (subsetCost vs n b)).2 = ix := rfl
  rw [hixe] at hm
  have hr := rows_range hm hle
  have hlen : ix.length = n := by rw [hm.cols_len]; omega
  have hper : Function.Periodic (fun a => (calcCost lsa vs n a).1) (Real.pi / n) := calcCost_rot lsa hl vs n hn
  obtain ⟨a₁, ha₁, hae⟩ := hper.exists_mem_Ico₀ hpi a
  have h1 : (calcCost lsa vs n b).1 ≤ (calcCost lsa vs n a).1 + tol := by
    have := hmin a₁ ha₁.1 ha₁.2.le
    rw [show (calcCost lsa vs n a).1 = (calcCost lsa vs n a₁).1 from hae]; exact this
  have h2 : (calcCost lsa vs n a).1 ≤ matchCost (subsetCost vs n a) (List.range n) ((List.range n).map g) := by
    rw [calcCost_eq]; exact (hl _ _ _).2 _ _ hgm
  have h3 : matchCost (subsetCost vs n a) (List.range n) ((List.range n).map g) ≤ -(n * (1 - ε)) := by
    have : ∀ l : List ℕ, (∀ k ∈ l, k < n) → matchCost (subsetCost vs n a) l (l.map g) ≤ -(l.length * (1 - ε)) := by
      intro l
      induction l with
      | nil => simp [matchCost]
      | cons k l ih =>
        intro h
        have e := ih fun x hx => h x (by simp [hx])
        obtain ⟨v, e1, e2⟩ := hgv k (h k (by simp))
        unfold matchCost at *
        simp only [List.map_cons, List.zipWith_cons_cons, List.sum_cons, List.length_cons, Nat.cast_add, Nat.cast_one]
        rw [subsetCost_axisCos, e1]
        simp only [Option.getD_some]
        linarith
    simpa using this (List.range n) fun k hk => List.mem_range.1 hk
  have h4 : (calcCost lsa vs n b).1 = -(List.zipWith (fun (i j : ℕ) => axisCos ((vs[j]?).getD (0, 0)) (i / n * Real.pi + b)) (List.range n) ix).sum := by
    rw [calcCost_eq, hixe, hr]
    unfold matchCost
    have : ∀ r c : List ℕ, (List.zipWith (subsetCost vs n b) r c).sum =
        -(List.zipWith (fun (i j : ℕ) => axisCos ((vs[j]?).getD (0, 0)) (i / n * Real.pi + b)) r c).sum := by
      intro r
      induction r with
      | nil => simp
      | cons i r ih =>
        intro c
        cases c with
        | nil => simp
        | cons j c =>
          simp only [List.zipWith_cons_cons, List.sum_cons, ih, subsetCost_axisCos]
          ring
    exact this _ _
  refine ⟨ix, b, hrun, hlen, hm.cols_nodup, fun k hk => ?_⟩
  have hj : ix[k]? = some (ix[k]'(by omega)) := List.getElem?_eq_getElem _
  have hjl : ix[k]'(by omega) < vs.length := hm.cols_lt _ (List.getElem_mem _)
  refine ⟨_, _, hj, List.getElem?_eq_getElem hjl, ?_⟩
  have h5 := sum_one_short (List.zipWith (fun (i j : ℕ) => axisCos ((vs[j]?).getD (0, 0)) (i / n * Real.pi + b)) (List.range n) ix)
    (by
      intro x hx
      obtain ⟨i, hi, rfl⟩ := List.mem_iff_getElem.1 hx
      rw [List.getElem_zipWith]
      exact axisCos_le_one _ _)
    (axisCos (vs[ix[k]'(by omega)]) (k / n * Real.pi + b))
    (by
      rw [List.mem_iff_getElem]
      refine ⟨k, by simp [hlen, hk], ?_⟩
      rw [List.getElem_zipWith, List.getElem_range, List.getElem?_eq_getElem hjl, Option.getD_some])
  simp only [List.length_zipWith, List.length_range, hlen, min_self] at h5
  linarith

theorem axisCos_one {v : Vec} (hv : v ≠ 0) {θ : ℝ} (h : 1 ≤ axisCos v θ) :
    ∃ s : ℝ, s ≠ 0 ∧ v = (s * Real.cos θ, s * Real.sin θ) := by
  have hpos : 0 < v.1 ^ 2 + v.2 ^ 2 := by
    rcases eq_or_ne v.1 0 with h1 | h1
    · have h2 : v.2 ≠ 0 := fun h2 => hv (Prod.ext h1 h2)
      positivity
    · positivity
  unfold axisCos at h
  rw [le_div_iff₀ (Real.sqrt_pos.2 hpos), one_mul, Real.sqrt_le_left (abs_nonneg _), sq_abs] at h
  have hsc := Real.sin_sq_add_cos_sq θ
  have hz : (v.1 * Real.sin θ - v.2 * Real.cos θ) ^ 2 ≤ 0 := by
    have e : (v.1 * Real.sin θ - v.2 * Real.cos θ) ^ 2 + (v.1 * Real.cos θ + v.2 * Real.sin θ) ^ 2 =
        (v.1 ^ 2 + v.2 ^ 2) * (Real.sin θ ^ 2 + Real.cos θ ^ 2) := by ring
    rw [hsc] at e
    linarith
  have hz0 : v.1 * Real.sin θ - v.2 * Real.cos θ = 0 := by
    have := le_antisymm hz (sq_nonneg _)
    exact pow_eq_zero_iff (two_ne_zero) |>.1 this
  refine ⟨v.1 * Real.cos θ + v.2 * Real.sin θ, fun h0 => ?_, Prod.ext ?_ ?_⟩
  · rw [h0] at h
    linarith
  · simp only
    linear_combination (-v.1) * hsc + Real.sin θ * hz0
  · simp only
    linear_combination (-v.2) * hsc - Real.cos θ * hz0

/-- C233: if the vectors contain an exact fan of `n` directions, the chosen vectors form one: no two of them are parallel or opposite, two of them include the angle of their
distance in the returned list times π/n, and for even `n` every chosen vector is perpendicular to the one half the list away. -/
theorem C233_exact (lsa : Field.LSA) (hl : IsLSA lsa) (shgo : (ℝ → ℝ) → ℝ → ℝ → ℝ) (hsh : MinimizerWithin 0 shgo) (vs : List Vec) (n : ℕ) (hn : 0 < n)
    (hv : ∀ v ∈ vs, v ≠ 0) (a : ℝ) (hfan : HasFan vs n a 0) (ix : List ℕ) (h : optimumSubset lsa shgo vs n = .ok ix) :
    ix.length = n ∧ ∀ k < n, ∀ l < n, ∃ i j u w, ix[k]? = some i ∧ ix[l]? = some j ∧ vs[i]? = some u ∧ vs[j]? = some w ∧
      (k ≠ l → u.1 * w.2 - u.2 * w.1 ≠ 0) ∧
      |u.1 * w.1 + u.2 * w.2| = |Real.cos (((l : ℝ) - k) * Real.pi / n)| * (Real.sqrt (u.1 ^ 2 + u.2 ^ 2) * Real.sqrt (w.1 ^ 2 + w.2 ^ 2)) ∧
      (2 * l = 2 * k + n → u.1 * w.1 + u.2 * w.2 = 0) := by
  obtain ⟨ix', b, h', hlen, -, hall⟩ := C233_near lsa hl 0 shgo hsh vs n hn hv a 0 hfan
  obtain rfl : ix' = ix := by
    rw [h] at h'
    exact (Except.ok.inj h').symm
  refine ⟨hlen, fun k hk l hl' => ?_⟩
  obtain ⟨i, u, hi, hu, hau⟩ := hall k hk
  obtain ⟨j, w, hj, hw, haw⟩ := hall l hl'
  have hn' : (n : ℝ) ≠ 0 := by positivity
  rw [show (1 : ℝ) - (n * 0 + 0) = 1 by ring] at hau haw
  obtain ⟨s, hs, rfl⟩ := axisCos_one (hv u (List.mem_of_getElem? hu)) hau
  obtain ⟨t, ht, rfl⟩ := axisCos_one (hv w (List.mem_of_getElem? hw)) haw
  set α := (k : ℝ) / n * Real.pi + b with hα
  set β := (l : ℝ) / n * Real.pi + b with hβ
  have hdiff : β - α = ((l : ℝ) - k) * Real.pi / n := by rw [hα, hβ]; ring
  have hcos : s * Real.cos α * (t * Real.cos β) + s * Real.sin α * (t * Real.sin β) = s * t * Real.cos (((l : ℝ) - k) * Real.pi / n) := by
    rw [← hdiff, Real.cos_sub]; ring
  have hmag : ∀ (r θ : ℝ), Real.sqrt ((r * Real.cos θ) ^ 2 + (r * Real.sin θ) ^ 2) = |r| := by
    intro r θ
    rw [show (r * Real.cos θ) ^ 2 + (r * Real.sin θ) ^ 2 = r ^ 2 * (Real.sin θ ^ 2 + Real.cos θ ^ 2) by ring, Real.sin_sq_add_cos_sq, mul_one,
      Real.sqrt_sq_eq_abs]
  refine ⟨i, j, _, _, hi, hj, hu, hw, fun hkl => ?_, ?_, fun hhalf => ?_⟩
  · simp only
    have e : s * Real.cos α * (t * Real.sin β) - s * Real.sin α * (t * Real.cos β) = s * t * Real.sin (((l : ℝ) - k) * Real.pi / n) := by
      rw [← hdiff, Real.sin_sub]; ring
    rw [e]
    refine mul_ne_zero (mul_ne_zero hs ht) fun h0 => ?_
    obtain ⟨z, hz⟩ := Real.sin_eq_zero_iff.1 h0
    have hz' : (z : ℝ) * n = (l : ℝ) - k := by
      have := Real.pi_ne_zero
      field_simp at hz
      linarith
    have hzi : z * n = (l : ℤ) - k := by exact_mod_cast hz'
    rcases lt_trichotomy z 0 with hz0 | hz0 | hz0
    · nlinarith
    · subst hz0; omega
    · nlinarith
  · simp only
    rw [hcos, hmag, hmag, abs_mul, abs_mul]
    ring
  · simp only
    rw [hcos]
    have : ((l : ℝ) - k) * Real.pi / n = Real.pi / 2 := by
      have : 2 * (l : ℝ) = 2 * k + n := by exact_mod_cast hhalf
      rw [show (l : ℝ) - k = n / 2 by linarith]
      field_simp
    rw [this, Real.cos_pi_div_two, mul_zero]

/-- Four vectors, of different length and sign, that contain a fan of two directions (north-east and south-east), next to two others. -/
theorem demo_fan : HasFan [(1, 0), (2, 2), (0, 5), (-3, 3)] 2 (Real.pi / 4) 0 := by
  refine ⟨fun k => if k = 0 then 1 else 3, by decide, fun k hk => ?_⟩
  have h2 : Real.sqrt 2 * Real.sqrt 2 = 2 := Real.mul_self_sqrt (by norm_num)
  have hpos : 0 < Real.sqrt 2 := Real.sqrt_pos.2 (by norm_num)
  rcases (by omega : k = 0 ∨ k = 1) with rfl | rfl
  · refine ⟨(2, 2), rfl, ?_⟩
    unfold axisCos
    simp only [Nat.cast_zero, zero_div, zero_mul, zero_add, Real.cos_pi_div_four, Real.sin_pi_div_four]
    rw [show (2 : ℝ) ^ 2 + 2 ^ 2 = 2 ^ 2 * 2 by norm_num, Real.sqrt_mul (by norm_num), Real.sqrt_sq (by norm_num),
      abs_of_nonneg (by positivity), le_div_iff₀ (by positivity)]
    linarith
  · refine ⟨(-3, 3), rfl, ?_⟩
    unfold axisCos
    have e : ((1 : ℕ) : ℝ) / (2 : ℕ) * Real.pi + Real.pi / 4 = Real.pi / 4 + Real.pi / 2 := by push_cast; ring
    rw [e, Real.cos_add_pi_div_two, Real.sin_add_pi_div_two, Real.cos_pi_div_four, Real.sin_pi_div_four]
    simp only
    rw [show (-3 : ℝ) ^ 2 + 3 ^ 2 = 3 ^ 2 * 2 by norm_num, Real.sqrt_mul (by norm_num), Real.sqrt_sq (by norm_num),
      abs_of_nonneg (by nlinarith), le_div_iff₀ (by positivity)]
    linarith

theorem exists_minimizer : ∃ shgo, MinimizerWithin 0 shgo := by
  classical
  refine ⟨fun f lo hi => if h : ∃ y, ∀ x, lo ≤ x → x ≤ hi → f y ≤ f x then h.choose else 0, ?_⟩
  intro f lo hi hf hlh x h1 h2
  have h : ∃ y, ∀ x, lo ≤ x → x ≤ hi → f y ≤ f x := by
    obtain ⟨y, hy, hmin⟩ := isCompact_Icc.exists_isMinOn (Set.nonempty_Icc.2 hlh) hf.continuousOn
    exact ⟨y, fun x h1 h2 => hmin ⟨h1, h2⟩⟩
  simp only
  rw [dif_pos h, add_zero]
  exact h.choose_spec x h1 h2

/-- The hypotheses of C233 hold in a concrete case: of the four vectors of `demo_fan` the two chosen are perpendicular. -/
example : ∃ (lsa : Field.LSA) (shgo : (ℝ → ℝ) → ℝ → ℝ → ℝ) (i j : ℕ) (u w : Vec), optimumSubset lsa shgo [(1, 0), (2, 2), (0, 5), (-3, 3)] 2 = .ok [i, j] ∧
    [((1 : ℝ), (0 : ℝ)), (2, 2), (0, 5), (-3, 3)][i]? = some u ∧ [((1 : ℝ), (0 : ℝ)), (2, 2), (0, 5), (-3, 3)][j]? = some w ∧ u.1 * w.1 + u.2 * w.2 = 0 := by
  obtain ⟨lsa, hl⟩ := Field.exists_lsa
  obtain ⟨shgo, hs⟩ := exists_minimizer
  have hv : ∀ v ∈ [((1 : ℝ), (0 : ℝ)), (2, 2), (0, 5), (-3, 3)], v ≠ (0 : Vec) := by
    intro v hv
    simp at hv
    rcases hv with rfl | rfl | rfl | rfl <;> simp [Prod.ext_iff]
  obtain ⟨ix, -, h, -⟩ := C233_near lsa hl 0 shgo hs _ 2 (by norm_num) hv _ 0 demo_fan
  obtain ⟨hlen, hall⟩ := C233_exact lsa hl shgo hs _ 2 (by norm_num) hv _ demo_fan ix h
  obtain ⟨i, j, u, w, hi, hj, hu, hw, -, -, hp⟩ := hall 0 (by norm_num) 1 (by norm_num)
  match ix, hlen with
  | [p, q], _ =>
    simp at hi hj
    subst hi hj
    exact ⟨lsa, shgo, _, _, u, w, h, hu, hw, hp (by norm_num)⟩

end SST.Cmv
