import Verif.Model.Tf
import Verif.Proofs.CorrPair

/-! # Helper lemmas: transfer functions, phase unwrapping -/

namespace SST.Tf
open SST SST.Dft SST.Corr

/-! ## Unwrapping -/

theorem pmod_spec (x : ℝ) {p : ℝ} (hp : 0 < p) : 0 ≤ pmod x p ∧ pmod x p < p ∧ ∃ k : ℤ, pmod x p = x - p * k := by
  unfold pmod
  have h1 := Int.floor_le (x / p)
  have h2 := Int.lt_floor_add_one (x / p)
  rw [le_div_iff₀ hp] at h1
  rw [div_lt_iff₀ hp] at h2
  refine ⟨by nlinarith, by nlinarith, ⌊x / p⌋, rfl⟩

theorem wrapStep_spec (d : ℝ) : |wrapStep d| ≤ Real.pi ∧ ∃ k : ℤ, wrapStep d = d + 2 * Real.pi * k := by
  have hpi := Real.pi_pos
  obtain ⟨h1, h2, k, hk⟩ := pmod_spec (d + Real.pi) (p := 2 * Real.pi) (by linarith)
  unfold wrapStep
  simp only
  split_ifs with hc
  · refine ⟨by rw [abs_of_pos hpi], -k + 1, ?_⟩
    have := hc.1
    rw [hk] at this
    push_cast
    linarith
  · refine ⟨by rw [abs_le]; constructor <;> linarith, -k, ?_⟩
    rw [hk]; push_cast; ring

theorem corrStep_spec (d : ℝ) : |d + corrStep d| ≤ Real.pi ∧ ∃ k : ℤ, corrStep d = 2 * Real.pi * k := by
  unfold corrStep
  split_ifs with h
  · exact ⟨by rw [add_zero]; exact h.le, 0, by simp⟩
  · obtain ⟨h1, k, hk⟩ := wrapStep_spec d
    exact ⟨by rw [add_sub_cancel]; exact h1, k, by rw [hk]; ring⟩

theorem corrStep_small {d : ℝ} (h : |d| ≤ Real.pi) : corrStep d = 0 := by
  have hpi := Real.pi_pos
  unfold corrStep
  split_ifs with h1
  · rfl
  · have he : |d| = Real.pi := le_antisymm h (not_lt.1 h1)
    have h2 : (0 : ℝ) < 2 * Real.pi := by linarith
    unfold wrapStep pmod
    rcases (abs_eq hpi.le).1 he with rfl | rfl
    · have : (Real.pi + Real.pi) / (2 * Real.pi) = 1 := by field_simp; ring
      simp only [this, Int.floor_one, Int.cast_one, mul_one]
      rw [if_pos ⟨by ring, hpi⟩, sub_self]
    · have : (-Real.pi + Real.pi) / (2 * Real.pi) = 0 := by rw [neg_add_cancel, zero_div]
      simp only [this, Int.floor_zero, Int.cast_zero, mul_zero]
      rw [if_neg (by intro h; linarith [h.2])]; ring

/-- Unwrapping of NaN-free phases, running form. -/
noncomputable def unwrapRF : ℝ → ℝ → List ℝ → List ℝ
  | _, _, [] => []
  | prev, c, q :: qs => (q + (c + corrStep (q - prev))) :: unwrapRF q (c + corrStep (q - prev)) qs

/-- Unwrapping of NaN-free phases. -/
noncomputable def unwrapR : List ℝ → List ℝ
  | [] => []
  | p :: ps => p :: unwrapRF p 0 ps

theorem unwrapFrom_some (p c : ℝ) (l : List ℝ) : unwrapFrom (some p) (some c) (l.map some) = (unwrapRF p c l).map some := by
  induction l generalizing p c with
  | nil => rfl
  | cons q qs ih => simp [unwrapFrom, unwrapRF, oadd, ostep, ih]

theorem unwrap_some (l : List ℝ) : unwrap (l.map some) = (unwrapR l).map some := by
  cases l with
  | nil => rfl
  | cons p ps => simp [unwrap, unwrapR, unwrapFrom_some]

theorem unwrapRF_length (p c : ℝ) (l : List ℝ) : (unwrapRF p c l).length = l.length := by
  induction l generalizing p c with
  | nil => rfl
  | cons q qs ih => simp [unwrapRF, ih]

theorem unwrapR_length (l : List ℝ) : (unwrapR l).length = l.length := by
  cases l with
  | nil => rfl
  | cons p ps => simp [unwrapR, unwrapRF_length]

theorem unwrapRF_congr (p : ℝ) (l : List ℝ) (c : ℝ) (hc : ∃ k : ℤ, c = 2 * Real.pi * k) :
    List.Forall₂ (fun q u => ∃ k : ℤ, u = q + 2 * Real.pi * k) l (unwrapRF p c l) := by
  induction l generalizing p c with
  | nil => exact List.Forall₂.nil
  | cons q qs ih =>
    obtain ⟨k, rfl⟩ := hc
    obtain ⟨-, j, hj⟩ := corrStep_spec (q - p)
    have h' : 2 * Real.pi * k + corrStep (q - p) = 2 * Real.pi * ((k + j : ℤ) : ℝ) := by rw [hj]; push_cast; ring
    refine List.Forall₂.cons ⟨k + j, by rw [h']⟩ (ih q _ ⟨k + j, h'⟩)

theorem unwrapR_congr (l : List ℝ) : List.Forall₂ (fun q u => ∃ k : ℤ, u = q + 2 * Real.pi * k) l (unwrapR l) := by
  cases l with
  | nil => exact List.Forall₂.nil
  | cons p ps => exact List.Forall₂.cons ⟨0, by simp⟩ (unwrapRF_congr p ps 0 ⟨0, by simp⟩)

theorem unwrapRF_chain (p c : ℝ) (l : List ℝ) : List.IsChain (fun a b => |b - a| ≤ Real.pi) ((p + c) :: unwrapRF p c l) := by
  induction l generalizing p c with
  | nil => simp [unwrapRF]
  | cons q qs ih =>
    unfold unwrapRF
    refine List.IsChain.cons_cons ?_ (ih q _)
    have := (corrStep_spec (q - p)).1
    rwa [show q + (c + corrStep (q - p)) - (p + c) = q - p + corrStep (q - p) by ring]

theorem unwrapR_chain (l : List ℝ) : List.IsChain (fun a b => |b - a| ≤ Real.pi) (unwrapR l) := by
  cases l with
  | nil => exact List.IsChain.nil
  | cons p ps => simpa [unwrapR] using unwrapRF_chain p 0 ps

/-- Two sequences congruent modulo 2π whose steps are below and at most π stay a constant apart. -/
theorem track {φ u : List ℝ} (h : List.Forall₂ (fun a b => ∃ k : ℤ, b = a + 2 * Real.pi * k) φ u)
    (h1 : List.IsChain (fun a b => |b - a| < Real.pi) φ) (h2 : List.IsChain (fun a b => |b - a| ≤ Real.pi) u)
    {d : ℝ} (h0 : ∀ a b, φ.head? = some a → u.head? = some b → b = a + d) : u = φ.map fun a => a + d := by
  have hpi := Real.pi_pos
  induction h with
  | nil => rfl
  | @cons a b φ' u' hab hrest ih =>
    have hb : b = a + d := h0 a b rfl rfl
    have htail : u' = φ'.map fun a => a + d := by
      apply ih h1.tail h2.tail
      intro a' b' ha' hb'
      cases hrest with
      | nil => simp at ha'
      | cons hab' _ =>
        simp only [List.head?_cons, Option.some.injEq] at ha' hb'
        subst ha' hb'
        obtain ⟨k', hk'⟩ := hab'
        obtain ⟨k, hk⟩ := hab
        have s1 := (List.isChain_cons_cons.1 h1).1
        have s2 := (List.isChain_cons_cons.1 h2).1
        have hd : d = 2 * Real.pi * k := by linarith
        rw [abs_lt] at s1
        rw [abs_le] at s2
        have hkk : k' = k := by
          have e : 2 * Real.pi * ((k' - k : ℤ) : ℝ) < 2 * Real.pi ∧ -(2 * Real.pi) < 2 * Real.pi * ((k' - k : ℤ) : ℝ) := by
            push_cast; constructor <;> nlinarith
          have e1 : ((k' - k : ℤ) : ℝ) < 1 := by
            by_contra hh; push Not at hh; nlinarith [e.1]
          have e2 : (-1 : ℝ) < ((k' - k : ℤ) : ℝ) := by
            by_contra hh; push Not at hh; nlinarith [e.2]
          have e3 : k' - k < 1 := by exact_mod_cast e1
          have e4 : -1 < k' - k := by exact_mod_cast e2
          omega
        rw [hk', hkk, hd]
    rw [hb, htail]; rfl

/-- `np.unwrap` recovers, up to a constant, every phase with steps below π from its wrapped values. -/
theorem unwrapR_track {φ p : List ℝ} (h : List.Forall₂ (fun a b => ∃ k : ℤ, b = a + 2 * Real.pi * k) φ p)
    (h1 : List.IsChain (fun a b => |b - a| < Real.pi) φ) {d : ℝ}
    (h0 : ∀ a b, φ.head? = some a → p.head? = some b → b = a + d) : unwrapR p = φ.map fun a => a + d := by
  apply track _ h1 (unwrapR_chain p)
  · intro a b ha hb
    cases p with
    | nil => simp [unwrapR] at hb
    | cons q qs => simp [unwrapR] at hb; exact h0 a b ha (by simp [hb])
  · have h2 := unwrapR_congr p
    have hl := h.length_eq
    have hl2 := h2.length_eq
    rw [List.forall₂_iff_get] at h h2 ⊢
    refine ⟨by omega, ?_⟩
    intro i hi1 hi2
    obtain ⟨k, hk⟩ := h.2 i hi1 (by omega)
    obtain ⟨j, hj⟩ := h2.2 i (by omega) hi2
    refine ⟨k + j, ?_⟩
    rw [hj, hk]; push_cast; ring

theorem oadd_none (a : Option ℝ) : oadd a none = none := by cases a <;> rfl

theorem unwrapFrom_none (p : Option ℝ) (l : List (Option ℝ)) : unwrapFrom p none l = List.replicate l.length none := by
  induction l generalizing p with
  | nil => rfl
  | cons q qs ih =>
    have h : oadd none (ostep p q) = none := rfl
    simp only [unwrapFrom, h, oadd_none, ih, List.length_cons, List.replicate_succ]

theorem unwrapFrom_nan (p c : ℝ) (pre : List ℝ) (post : List (Option ℝ)) :
    unwrapFrom (some p) (some c) (pre.map some ++ none :: post) =
      (unwrapRF p c pre).map some ++ List.replicate (post.length + 1) none := by
  induction pre generalizing p c with
  | nil =>
    have h : oadd (some c) (ostep (some p) none) = none := rfl
    simp only [List.map_nil, List.nil_append, unwrapFrom, unwrapRF, h, oadd_none, unwrapFrom_none, List.replicate_succ]
  | cons q qs ih => simp [unwrapFrom, unwrapRF, oadd, ostep, ih]

/-- Everything from the first NaN on becomes NaN. -/
theorem unwrap_nan (pre : List ℝ) (post : List (Option ℝ)) :
    unwrap (pre.map some ++ none :: post) = (unwrapR pre).map some ++ List.replicate (post.length + 1) none := by
  cases pre with
  | nil =>
    cases post with
    | nil => rfl
    | cons q qs =>
      have h : oadd (some 0) (ostep none q) = none := rfl
      simp only [List.map_nil, List.nil_append, unwrap, unwrapR, unwrapFrom, h, oadd_none, unwrapFrom_none,
        List.length_cons, List.replicate_succ]
  | cons p ps => simp [unwrap, unwrapR, unwrapFrom_nan]

theorem unwrap_length (l : List (Option ℝ)) : (unwrap l).length = l.length := by
  have : ∀ (p c : Option ℝ) (l : List (Option ℝ)), (unwrapFrom p c l).length = l.length := by
    intro p c l
    induction l generalizing p c with
    | nil => rfl
    | cons q qs ih => simp [unwrapFrom, ih]
  cases l with
  | nil => rfl
  | cons p ps => simp [unwrap, this]

/-! ## Averaged spectra -/

theorem psd_eq (c : ℝ) (X : List ℂ) : psd c X = c / X.length * (X.map Complex.normSq).sum := by
  unfold psd; ring

theorem power_nonneg (X : List ℂ) : 0 ≤ (X.map Complex.normSq).sum :=
  List.sum_nonneg (by intro v hv; obtain ⟨z, _, rfl⟩ := List.mem_map.1 hv; exact Complex.normSq_nonneg z)

theorem csd_eq (c : ℝ) (X Y : List ℂ) :
    csd c X Y = ((c / X.length : ℝ) : ℂ) * (List.zipWith (fun x y => (starRingEnd ℂ) x * y) X Y).sum := by
  unfold csd; push_cast; ring

/-- Cauchy-Schwarz for lists of complex numbers. -/
theorem cs_complex : ∀ X Y : List ℂ,
    Complex.normSq (List.zipWith (fun x y => (starRingEnd ℂ) x * y) X Y).sum ≤
      (X.map Complex.normSq).sum * (Y.map Complex.normSq).sum
  | [], Y => by simp
  | x :: X, [] => by simp
  | x :: X, y :: Y => by
    have ih := cs_complex X Y
    have hX := power_nonneg X
    have hY := power_nonneg Y
    simp only [List.zipWith_cons_cons, List.sum_cons, List.map_cons]
    set S := (List.zipWith (fun x y => (starRingEnd ℂ) x * y) X Y).sum
    set A := (X.map Complex.normSq).sum
    set B := (Y.map Complex.normSq).sum
    have h1 : Complex.normSq ((starRingEnd ℂ) x * y + S) ≤
        (Real.sqrt (Complex.normSq x * Complex.normSq y) + Real.sqrt (A * B)) ^ 2 := by
      rw [Complex.normSq_eq_norm_sq]
      apply pow_le_pow_left₀ (norm_nonneg _)
      refine (norm_add_le _ _).trans ?_
      apply add_le_add
      · rw [norm_mul, RCLike.norm_conj, Complex.normSq_eq_norm_sq, Complex.normSq_eq_norm_sq, ← mul_pow,
          Real.sqrt_sq (by positivity)]
      · apply Real.le_sqrt_of_sq_le
        rw [← Complex.normSq_eq_norm_sq]; exact ih
    refine h1.trans ?_
    have hx := Complex.normSq_nonneg x
    have hy := Complex.normSq_nonneg y
    set a := Complex.normSq x
    set b := Complex.normSq y
    have e1 := Real.sq_sqrt (show 0 ≤ a * b by positivity)
    have e2 := Real.sq_sqrt (show 0 ≤ A * B by positivity)
    have e3 : Real.sqrt (a * b) * Real.sqrt (A * B) = Real.sqrt (a * B) * Real.sqrt (A * b) := by
      rw [← Real.sqrt_mul (by positivity), ← Real.sqrt_mul (by positivity)]
      congr 1; ring
    have e4 := Real.sq_sqrt (show 0 ≤ a * B by positivity)
    have e5 := Real.sq_sqrt (show 0 ≤ A * b by positivity)
    nlinarith [sq_nonneg (Real.sqrt (a * B) - Real.sqrt (A * b))]

theorem cohBin_range {c : ℝ} {X Y : List ℂ} (hl : X.length = Y.length) {v : ℝ} (h : cohBin c X Y = some v) : 0 ≤ v ∧ v ≤ 1 := by
  unfold cohBin at h
  split_ifs at h with h0
  obtain rfl := Option.some.inj h
  have e : psd c X * psd c Y = (c / X.length) ^ 2 * ((X.map Complex.normSq).sum * (Y.map Complex.normSq).sum) := by
    rw [psd_eq, psd_eq, ← hl]; ring
  have e2 : Complex.normSq (csd c X Y) = (c / X.length) ^ 2 *
      Complex.normSq (List.zipWith (fun x y => (starRingEnd ℂ) x * y) X Y).sum := by
    rw [csd_eq, map_mul, Complex.normSq_ofReal]; ring
  have hpos : 0 < psd c X * psd c Y := by
    apply lt_of_le_of_ne _ (Ne.symm h0)
    rw [e]
    exact mul_nonneg (sq_nonneg _) (mul_nonneg (power_nonneg X) (power_nonneg Y))
  constructor
  · exact div_nonneg (Complex.normSq_nonneg _) hpos.le
  · rw [div_le_one hpos, e, e2]
    exact mul_le_mul_of_nonneg_left (cs_complex X Y) (sq_nonneg _)

theorem zipWith_conj_self (X : List ℂ) :
    (List.zipWith (fun x y => (starRingEnd ℂ) x * y) X X).sum = ((X.map Complex.normSq).sum : ℝ) := by
  induction X with
  | nil => simp
  | cons x X ih =>
    rw [List.zipWith_cons_cons, List.sum_cons, ih, List.map_cons, List.sum_cons, Complex.ofReal_add,
      Complex.normSq_eq_conj_mul_self]

theorem csd_self (c : ℝ) (X : List ℂ) : csd c X X = (psd c X : ℝ) := by
  rw [csd_eq, zipWith_conj_self, psd_eq]; push_cast; ring

theorem csd_smul (c : ℝ) (z : ℂ) (X Y : List ℂ) : csd c X (Y.map fun y => z * y) = z * csd c X Y := by
  rw [csd_eq, csd_eq, List.zipWith_map_right]
  have : (List.zipWith (fun x y => (starRingEnd ℂ) x * (z * y)) X Y).sum =
      z * (List.zipWith (fun x y => (starRingEnd ℂ) x * y) X Y).sum := by
    induction X generalizing Y with
    | nil => simp
    | cons x X ih =>
      cases Y with
      | nil => simp
      | cons y Y => simp [ih, mul_add]; ring
  rw [this]; ring

theorem csd_add (c : ℝ) (X Y Y' : List ℂ) (hl : Y.length = Y'.length) :
    csd c X (List.zipWith (· + ·) Y Y') = csd c X Y + csd c X Y' := by
  rw [csd_eq, csd_eq, csd_eq, ← mul_add]
  congr 1
  induction X generalizing Y Y' with
  | nil => simp
  | cons x X ih =>
    cases Y with
    | nil => cases Y' with
      | nil => simp
      | cons => simp at hl
    | cons y Y =>
      cases Y' with
      | nil => simp at hl
      | cons y' Y' =>
        simp only [List.zipWith_cons_cons, List.sum_cons]
        rw [ih Y Y' (by simpa using hl)]; ring

theorem psd_smul (c : ℝ) (z : ℂ) (X : List ℂ) : psd c (X.map fun y => z * y) = Complex.normSq z * psd c X := by
  rw [psd_eq, psd_eq, List.map_map, List.length_map]
  have : (X.map (Complex.normSq ∘ fun y => z * y)).sum = Complex.normSq z * (X.map Complex.normSq).sum := by
    rw [← List.sum_map_mul_left]
    congr 1
    apply List.map_congr_left
    intro v _; simp
  rw [this]; ring

theorem csd_symm (c : ℝ) (X Y : List ℂ) (hl : X.length = Y.length) : csd c Y X = (starRingEnd ℂ) (csd c X Y) := by
  rw [csd_eq, csd_eq, map_mul, Complex.conj_ofReal, hl]
  congr 1
  clear hl
  induction X generalizing Y with
  | nil => simp
  | cons x X ih =>
    cases Y with
    | nil => simp
    | cons y Y =>
      rw [List.zipWith_cons_cons, List.sum_cons, ih, List.zipWith_cons_cons, List.sum_cons, map_add, map_mul,
        Complex.conj_conj, mul_comm]

/-- Output spectra a multiple of the input spectra. -/
theorem tfBin_multiple (c : ℝ) (z : ℂ) (X : List ℂ) (h : psd c X ≠ 0) : tfBin c X (X.map fun x => z * x) = some z := by
  unfold tfBin
  rw [if_neg h, csd_smul, csd_self]
  congr 1
  have : ((psd c X : ℝ) : ℂ) ≠ 0 := by exact_mod_cast h
  field_simp

theorem cohBin_multiple (c : ℝ) {z : ℂ} (hz : z ≠ 0) (X : List ℂ) (h : psd c X ≠ 0) :
    cohBin c X (X.map fun x => z * x) = some 1 := by
  unfold cohBin
  have hz' : Complex.normSq z ≠ 0 := fun h => hz (Complex.normSq_eq_zero.1 h)
  rw [psd_smul, csd_smul, csd_self, if_neg (by positivity)]
  congr 1
  rw [map_mul, Complex.normSq_ofReal]
  field_simp

/-! ## Linearity of the segment spectra -/

@[simp] theorem detrend_length (d : Detrend) (x : List ℝ) : (detrend d x).length = x.length := by
  cases d <;> simp [detrend]

theorem at0_zipLin (a b : ℝ) (x y : List ℝ) (hl : x.length = y.length) (j : ℕ) :
    at0 (List.zipWith (fun u v => a * u + b * v) x y) j = a * at0 x j + b * at0 y j := by
  unfold at0
  rw [List.getElem?_zipWith]
  by_cases h : j < x.length
  · rw [List.getElem?_eq_getElem h, List.getElem?_eq_getElem (by omega : j < y.length)]; simp
  · rw [List.getElem?_eq_none (by omega : x.length ≤ j), List.getElem?_eq_none (by omega : y.length ≤ j)]; simp

theorem sum_zipLin (a b : ℝ) (x y : List ℝ) (hl : x.length = y.length) :
    (List.zipWith (fun u v => a * u + b * v) x y).sum = a * x.sum + b * y.sum := by
  induction x generalizing y with
  | nil => cases y with
    | nil => simp
    | cons => simp at hl
  | cons u x ih =>
    cases y with
    | nil => simp at hl
    | cons v y => simp only [List.zipWith_cons_cons, List.sum_cons, ih y (by simpa using hl)]; ring

theorem mean_zipLin (a b : ℝ) (x y : List ℝ) (hl : x.length = y.length) :
    mean (List.zipWith (fun u v => a * u + b * v) x y) = a * mean x + b * mean y := by
  rw [mean_def, mean_def, mean_def, sum_zipLin a b x y hl, List.length_zipWith, ← hl, Nat.min_self]
  ring

theorem slope_zipLin (a b : ℝ) (x y : List ℝ) (hl : x.length = y.length) :
    slope (List.zipWith (fun u v => a * u + b * v) x y) = a * slope x + b * slope y := by
  unfold slope
  rw [List.length_zipWith, ← hl, Nat.min_self]
  have : ∑ j ∈ Finset.range x.length, ((j : ℝ) - (x.length - 1) / 2) * at0 (List.zipWith (fun u v => a * u + b * v) x y) j =
      a * ∑ j ∈ Finset.range x.length, ((j : ℝ) - (x.length - 1) / 2) * at0 x j +
      b * ∑ j ∈ Finset.range x.length, ((j : ℝ) - (x.length - 1) / 2) * at0 y j := by
    rw [Finset.mul_sum, Finset.mul_sum, ← Finset.sum_add_distrib]
    apply Finset.sum_congr rfl
    intro j _
    rw [at0_zipLin a b x y hl]; ring
  rw [this]; ring

theorem detrend_zipLin (d : Detrend) (a b : ℝ) (x y : List ℝ) (hl : x.length = y.length) :
    detrend d (List.zipWith (fun u v => a * u + b * v) x y) =
      List.zipWith (fun u v => a * u + b * v) (detrend d x) (detrend d y) := by
  cases d with
  | none => rfl
  | constant =>
    simp only [detrend, mean_zipLin a b x y hl]
    rw [List.zipWith_map, List.map_zipWith]
    congr 1
    funext u v; ring
  | linear =>
    simp only [detrend, mean_zipLin a b x y hl, slope_zipLin a b x y hl]
    rw [List.length_zipWith, ← hl, Nat.min_self, List.zipWith_map, List.zipWith_self]
    apply List.map_congr_left
    intro j _
    rw [at0_zipLin a b x y hl]; ring

theorem spectrum_zipLin (w : List ℝ) (d : Detrend) (a b : ℝ) (x y : List ℝ) (hl : x.length = y.length) (k : ℕ) :
    spectrum w d (List.zipWith (fun u v => a * u + b * v) x y) k = a * spectrum w d x k + b * spectrum w d y k := by
  unfold spectrum
  rw [List.length_zipWith, ← hl, Nat.min_self, Finset.mul_sum, Finset.mul_sum, ← Finset.sum_add_distrib]
  apply Finset.sum_congr rfl
  intro j _
  rw [detrend_zipLin d a b x y hl, at0_zipLin a b _ _ (by simp [hl])]
  push_cast; ring

theorem segment_zipLin (a b : ℝ) (x y : List ℝ) (L s : ℕ) :
    segment (List.zipWith (fun u v => a * u + b * v) x y) L s =
      List.zipWith (fun u v => a * u + b * v) (segment x L s) (segment y L s) := by
  unfold segment
  rw [List.drop_zipWith, List.take_zipWith]

theorem spectra_zipLin (w : List ℝ) (d : Detrend) (L ov : ℕ) (a b : ℝ) (x y : List ℝ) (hl : x.length = y.length) (k : ℕ) :
    spectra w d L ov (List.zipWith (fun u v => a * u + b * v) x y) k =
      List.zipWith (· + ·) ((spectra w d L ov x k).map fun z => (a : ℂ) * z) ((spectra w d L ov y k).map fun z => (b : ℂ) * z) := by
  unfold spectra
  rw [List.length_zipWith, ← hl, Nat.min_self, List.map_map, List.map_map, List.zipWith_map, List.zipWith_self]
  apply List.map_congr_left
  intro s _
  simp only [Function.comp]
  rw [segment_zipLin, spectrum_zipLin _ _ _ _ _ _ (by simp [segment, hl])]

theorem spectra_length (w : List ℝ) (d : Detrend) (L ov : ℕ) (x : List ℝ) (k : ℕ) :
    (spectra w d L ov x k).length = (segStarts x.length L ov).length := by simp [spectra]

end SST.Tf
