import Verif.Model.RoundQc
import Verif.Props.RoundCoeff
import Verif.Props.RoundVec

/-!
# Property C282: the pairwise quality control with rounding
-/

namespace SST.Round
open SST SST.Spec SST.Corr SST.Cmv SST.Spatial

section
variable {u : ℝ} {A : Arith}

private theorem std_abs (h : FloatLike (2 ^ (-53 : ℤ)) A) {z : List ℝ} (hz : z ≠ []) (hn : z.length ≤ 100000) :
    |stdF A z - Real.sqrt (variance z)| ≤ 1e-10 * (rss z / Real.sqrt z.length) := by
  have np : 0 < z.length := List.length_pos_iff.mpr hz
  have n0 : (0 : ℝ) < z.length := by exact_mod_cast np
  have s0 := Real.sqrt_pos.mpr n0
  have kn : (z.length : ℝ) ≤ 100000 := by exact_mod_cast hn
  have sv : Real.sqrt (variance z) = rss (demean z) / Real.sqrt z.length := by
    unfold variance mean rss demean
    rw [Real.sqrt_div (List.sum_nonneg (by simp; intro a _; positivity)), List.map_map]
    simp [Function.comp_def]
  rw [sv]
  rw [u53'] at h
  obtain ⟨d, dl, dz, dr⟩ := condF_disturbed h "coeff" hz
  have cd : conditioned "coeff" z = demean z := if_pos rfl
  rw [cd] at dz
  have tri := rss_near (demean z) d (by rw [dl]; simp [demean])
  rw [← dz] at tri
  have c := pow_small (k := z.length + 1) (by omega)
  push_cast at c
  have dr' : rss d ≤ 3.1e-11 * rss z := dr.trans (mul_le_mul_of_nonneg_right (by linarith) (rss_nonneg z))
  have nr := std_near h hz
  set ρ := rss (condF A "coeff" z) with hρ
  have ρ0 : 0 ≤ ρ := rss_nonneg _
  have nd := near_diff (by norm_num) (by norm_num) (by positivity : 0 ≤ ρ / Real.sqrt z.length) nr
  have b : 1 - 1.2e-11 ≤ (1 - 1 / 9007199254740992 : ℝ) ^ (z.length + 2) := by
    have := one_add_mul_le_pow (a := -(1 / 9007199254740992 : ℝ)) (by norm_num) (z.length + 2)
    rw [← sub_eq_add_neg] at this
    refine le_trans ?_ this
    push_cast
    linarith
  have c1 : 1 / (1 - 1 / 9007199254740992 : ℝ) ^ (z.length + 2) ≤ 1 / (1 - 1.2e-11) := one_div_le_one_div_of_le (by norm_num) b
  have c2 : (1 : ℝ) / (1 - 1.2e-11) ≤ 1 + 1.3e-11 := by norm_num
  have nd' : |stdF A z - ρ / Real.sqrt z.length| ≤ 1.3e-11 * (ρ / Real.sqrt z.length) := nd.trans (mul_le_mul_of_nonneg_right (by linarith) (by positivity))
  have ρb : ρ ≤ 1.1 * rss z := by
    have := (abs_le.mp tri).2
    linarith [demean_le z, rss_nonneg z]
  have e : ρ / Real.sqrt z.length - rss (demean z) / Real.sqrt z.length = (ρ - rss (demean z)) / Real.sqrt z.length := by ring
  have t2 : |ρ / Real.sqrt z.length - rss (demean z) / Real.sqrt z.length| ≤ 3.1e-11 * (rss z / Real.sqrt z.length) := by
    rw [e, abs_div, abs_of_pos s0, div_le_iff₀ s0]
    calc _ ≤ 3.1e-11 * rss z := tri.trans dr'
      _ = _ := by field_simp
  have t1 : ρ / Real.sqrt z.length ≤ 1.1 * (rss z / Real.sqrt z.length) := by
    rw [div_le_iff₀ s0]
    calc _ ≤ 1.1 * rss z := ρb
      _ = _ := by field_simp
  have t := abs_sub_le (stdF A z) (ρ / Real.sqrt z.length) (rss (demean z) / Real.sqrt z.length)
  have q : 0 ≤ rss z / Real.sqrt z.length := div_nonneg (rss_nonneg z) s0.le
  linarith

private theorem rms_le {z : List ℝ} (hz : z ≠ []) {M : ℝ} (hM : 0 ≤ M) (hb : ∀ v ∈ z, |v| ≤ M) : rss z / Real.sqrt z.length ≤ M := by
  have n0 : (0 : ℝ) < z.length := by exact_mod_cast List.length_pos_iff.mpr hz
  rw [div_le_iff₀ (Real.sqrt_pos.mpr n0)]
  unfold rss
  refine Real.sqrt_le_iff.mpr ⟨by positivity, ?_⟩
  rw [mul_pow, Real.sq_sqrt n0.le]
  clear hz n0
  induction z with
  | nil => simp
  | cons v l ih =>
    have a := ih fun w hw => hb w (List.mem_cons_of_mem _ hw)
    have b : v ^ 2 ≤ M ^ 2 := sq_le_sq' (by linarith [(abs_le.mp (hb v (by simp))).1]) (abs_le.mp (hb v (by simp))).2
    simp only [List.map_cons, List.sum_cons, List.length_cons]
    push_cast
    linarith

private theorem lit (h : FloatLike (2 ^ (-53 : ℤ)) A) : |A.fl 0.001 - 0.001| ≤ 1e-15 := by
  have := h.rounds 0.001
  rw [abs_of_pos (by norm_num : (0 : ℝ) < 0.001)] at this
  refine this.trans ?_
  norm_num

/-- C282: a pair with a sensor that does not vary, of any value up to `10⁶` in size, never passes: with rounding its standard deviation need not be 0, and its correlation may
be infinite (C281), but it stays below the limit. -/
theorem C282_dead {ι : Type} [DecidableEq ι] (h : FloatLike (2 ^ (-53 : ℤ)) A) (method : String) (o : Dict) (p : PairStatF ι) {s : List (Option ℝ)} (hs : s = p.sigA ∨ s = p.sigB)
    (hv : s.filterMap id ≠ []) (hn : (s.filterMap id).length ≤ 100000) {c : ℝ} (hc : ∀ v ∈ s.filterMap id, v = c) (hb : |c| ≤ 1000000) : pairFlagF A method o p ≠ .good := by
  have hz : valid s ≠ [] := hv
  have sd := std_abs h hz hn
  have rep : valid s = List.replicate (valid s).length c := List.eq_replicate_iff.mpr ⟨rfl, hc⟩
  have n0 : ((valid s).length : ℝ) ≠ 0 := by exact_mod_cast (List.length_pos_iff.mpr hz).ne'
  have m : mean (valid s) = c := by
    unfold mean
    have : (valid s).sum = (valid s).length * c := by
      conv_lhs => rw [rep]
      simp
    rw [this]; field_simp
  have v0 : variance (valid s) = 0 := by
    unfold variance
    rw [m]
    have : ((valid s).map fun x => (x - c) ^ 2) = (valid s).map fun _ => (0 : ℝ) := List.map_congr_left fun v hv' => by rw [hc v hv']; simp
    rw [this]
    unfold mean
    simp
  have r := rms_le hz (M := 1000000) (by norm_num) (fun v hv' => by rw [hc v hv']; exact hb)
  rw [v0, Real.sqrt_zero, sub_zero] at sd
  have lt : ltO (nanstdF A s) (A.fl 0.001) := by
    refine ⟨stdF A (valid s), by unfold nanstdF; rw [if_neg hz], ?_⟩
    have := (le_abs_self _).trans sd
    have := (abs_le.mp (lit h)).1
    linarith
  have both : ltO (nanstdF A p.sigA) (A.fl 0.001) ∨ ltO (nanstdF A p.sigB) (A.fl 0.001) := by
    rcases hs with rfl | rfl
    · exact Or.inl lt
    · exact Or.inr lt
  unfold pairFlagF
  simp only [if_pos both]
  split_ifs <;> simp

/-- What the tests of exact arithmetic must keep from their limits: a record of at most 100000 samples between 0 and 10, not all 0, whose standard deviation and variation ratio are
not within `10⁻⁸` of the limits. -/
structure SigClear (o : Dict) (s : List (Option ℝ)) : Prop where
  nonempty : s.filterMap id ≠ []
  len : (s.filterMap id).length ≤ 100000
  range : ∀ v ∈ s.filterMap id, 0 ≤ v ∧ v ≤ 10
  pos : ∃ v ∈ s.filterMap id, 0 < v
  std : ∀ d : ℝ, nanstd s = some d → 1e-8 < |d - 0.001|
  ratio : ∀ r : ℝ, varRatio s = .fin r → 1e-8 < |r - optVal o "var_s_lim"|

private theorem std_iff (h : FloatLike (2 ^ (-53 : ℤ)) A) {o : Dict} {s : List (Option ℝ)} (hs : SigClear o s) : ltO (nanstdF A s) (A.fl 0.001) ↔ ltO (nanstd s) 0.001 := by
  have hz : valid s ≠ [] := hs.nonempty
  have sd := std_abs h hz hs.len
  have r := rms_le hz (M := 10) (by norm_num) (fun v hv => by rw [abs_of_nonneg (hs.range v hv).1]; exact (hs.range v hv).2)
  have e1 : nanstdF A s = some (stdF A (valid s)) := by unfold nanstdF; rw [if_neg hz]
  have e2 : nanstd s = some (Real.sqrt (variance (valid s))) := by unfold nanstd nanvar; rw [if_neg hz]; rfl
  have m := hs.std _ e2
  have l := lit h
  unfold ltO
  simp only [e1, e2, Option.some.injEq, exists_eq_left']
  rw [abs_le] at sd l
  rw [lt_abs] at m
  rcases m with m | m
  · constructor <;> intro hlt <;> linarith [sd.1, sd.2, l.1, l.2]
  · constructor <;> intro _ <;> linarith [sd.1, sd.2, l.1, l.2]

private theorem ratio_iff (h : FloatLike (2 ^ (-53 : ℤ)) A) {o : Dict} {s : List (Option ℝ)} (hs : SigClear o s) :
    XR.lt (varRatioF A s) (.fin (optVal o "var_s_lim")) ↔ XR.lt (varRatio s) (.fin (optVal o "var_s_lim")) := by
  have hz : valid s ≠ [] := hs.nonempty
  have np : 0 < (valid s).length := List.length_pos_iff.mpr hz
  have n0 : (0 : ℝ) < (valid s).length := by exact_mod_cast np
  have kn : ((valid s).length : ℝ) ≤ 100000 := by exact_mod_cast hs.len
  obtain ⟨w, hw, w0⟩ := hs.pos
  obtain ⟨M, hM⟩ : ∃ M, (valid s).max? = some M := by
    cases hm : (valid s).max? with
    | none => exact absurd (List.max?_eq_none_iff.mp hm) hz
    | some M => exact ⟨M, rfl⟩
  have hM' := List.max?_eq_some_iff.mp hM
  have M0 : 0 < M := w0.trans_le (hM'.2 w hw)
  have mean_le : mean (valid s) ≤ M := by
    unfold mean
    rw [div_le_iff₀ n0, mul_comm]
    have := List.sum_le_card_nsmul (valid s) M fun v hv => hM'.2 v hv
    simpa using this
  have mean0 : 0 ≤ mean (valid s) := div_nonneg (List.sum_nonneg fun v hv => (hs.range v hv).1) n0.le
  have h1 : (2 : ℝ) ^ (-53 : ℤ) = 1 / 9007199254740992 := u53'
  rw [h1] at h
  have h0 := u_nonneg h.rounds
  have hl := h.lt_one
  have sm := (h.sums (valid s) hz).near h.rounds hl (fun v hv => (hs.range v hv).1)
  have mn : Near (1 / 9007199254740992) ((valid s).length) (mean (valid s)) (meanF A (valid s)) := by
    have := (sm.div h0 hl (List.sum_nonneg fun v hv => (hs.range v hv).1) n0 (Near.refl (u := 1 / 9007199254740992) ((valid s).length : ℝ))).rnd h.rounds hl mean0
    rwa [show (valid s).length - 1 + 0 + 1 = (valid s).length by omega] at this
  have q := (mn.div h0 hl mean0 M0 (Near.refl (u := 1 / 9007199254740992) M)).rnd h.rounds hl (div_nonneg mean0 M0.le)
  set q0 := mean (valid s) / M with hq0
  have q0n : 0 ≤ q0 := div_nonneg mean0 M0.le
  have q01 : q0 ≤ 1 := (div_le_one M0).mpr mean_le
  have nd := near_diff h0 hl q0n q
  have b : 1 - 1.2e-11 ≤ (1 - 1 / 9007199254740992 : ℝ) ^ ((valid s).length + 0 + 1) := by
    have := one_add_mul_le_pow (a := -(1 / 9007199254740992 : ℝ)) (by norm_num) ((valid s).length + 0 + 1)
    rw [← sub_eq_add_neg] at this
    refine le_trans ?_ this
    push_cast
    linarith
  have c1 : 1 / (1 - 1 / 9007199254740992 : ℝ) ^ ((valid s).length + 0 + 1) ≤ 1 / (1 - 1.2e-11) := one_div_le_one_div_of_le (by norm_num) b
  have c2 : (1 : ℝ) / (1 - 1.2e-11) ≤ 1 + 1.3e-11 := by norm_num
  have nd' : |A.fl (meanF A (valid s) / M) - q0| ≤ 1.3e-11 := by
    refine nd.trans ?_
    have := mul_le_mul (a := 1 / (1 - 1 / 9007199254740992 : ℝ) ^ ((valid s).length + 0 + 1) - 1) (b := 1.3e-11) (by linarith) q01 q0n (by norm_num)
    linarith
  set q1 := A.fl (meanF A (valid s) / M) with hq1
  have rr := h.rounds (1 - q1)
  have ab : |1 - q1| ≤ 2 := by
    rw [abs_le] at nd' ⊢
    constructor <;> linarith [nd'.1, nd'.2]
  have tot : |A.fl (1 - q1) - (1 - q0)| ≤ 1e-10 := by
    have t := abs_sub_le (A.fl (1 - q1)) (1 - q1) (1 - q0)
    have e : |1 - q1 - (1 - q0)| = |q1 - q0| := by rw [← abs_neg]; ring_nf
    rw [e] at t
    linarith
  have e1 : varRatioF A s = .fin (A.fl (1 - q1)) := by
    unfold varRatioF nanmax
    rw [if_neg hz, hM]
    simp only [XR.ofOption, divXF, XR.div, if_neg M0.ne', flX, XR.oneSub, ← hq1]
  have e2 : varRatio s = .fin (1 - q0) := by
    unfold varRatio nanmax nanmean meanO
    rw [if_neg hz, hM]
    simp only [XR.divO, XR.div, if_neg M0.ne', XR.oneSub, ← hq0]
  have m := hs.ratio _ e2
  rw [e1, e2]
  unfold XR.lt
  rw [abs_le] at tot
  rw [lt_abs] at m
  rcases m with m | m
  · constructor <;> intro hlt <;> linarith [tot.1, tot.2]
  · constructor <;> intro _ <;> linarith [tot.1, tot.2]

/-- C282: away from the limits the flag of a pair is that of exact arithmetic.  `c` is the correlation ratio `1 - mean / peak`, `w` the speed. -/
theorem C282_same {ι : Type} [DecidableEq ι] (h : FloatLike (2 ^ (-53 : ℤ)) A) (method : String) (o : Dict) (p : PairStat ι) (ha : SigClear o p.sigA) (hb : SigClear o p.sigB)
    {d k m : ℝ} (hd : p.delay = some d) (d0 : d ≠ 0) (hk : p.peak = some k) (k0 : k ≠ 0) (hm : p.meanCorr = some m)
    (hc : 1e-15 * (1 + |m / k|) < |1 - m / k - optVal o "mincorr"|)
    (hmin : 1e-15 * (magnitude p.vec / |d|) < abs (magnitude p.vec / |d| - optVal o "minvelocity")) (hmax : 1e-15 * (magnitude p.vec / |d|) < abs (magnitude p.vec / |d| - optVal o "maxvelocity")) :
    pairFlagF A method o ⟨p.a, p.b, p.vec, p.sigA, p.sigB, p.delay, XR.ofOption p.peak, XR.ofOption p.meanCorr⟩ = pairFlag method o p := by
  have hu : (2 : ℝ) ^ (-53 : ℤ) ≤ 1.2e-16 := by norm_num [zpow_neg]
  have h0 := u_nonneg h.rounds
  have h1 := h.lt_one
  have c1 := std_iff h ha
  have c2 := std_iff h hb
  have c3 := ratio_iff h ha
  have c4 := ratio_iff h hb
  have dp := abs_pos.mpr d0
  -- the correlation ratio
  have e1 : flX A (XR.oneSub (divXF A (XR.ofOption p.meanCorr) (XR.ofOption p.peak))) = .fin (A.fl (1 - A.fl (m / k))) := by
    rw [hm, hk]; simp only [XR.ofOption, divXF, XR.div, if_neg k0, flX, XR.oneSub]
  have e2 : XR.oneSub (XR.divO p.meanCorr p.peak) = .fin (1 - m / k) := by
    rw [hm, hk]; simp only [XR.divO, XR.div, if_neg k0, XR.oneSub]
  have c5 : XR.lt (.fin (A.fl (1 - A.fl (m / k)))) (.fin (optVal o "mincorr")) ↔ XR.lt (.fin (1 - m / k)) (.fin (optVal o "mincorr")) := by
    have r1 := h.rounds (m / k)
    have r2 := h.rounds (1 - A.fl (m / k))
    have q0 := abs_nonneg (m / k)
    have r1' : |A.fl (m / k) - m / k| ≤ 1.2e-16 * |m / k| := r1.trans (mul_le_mul_of_nonneg_right hu q0)
    have b : |1 - A.fl (m / k)| ≤ 1 + 1.1 * |m / k| := by
      have t := abs_sub_abs_le_abs_sub (A.fl (m / k)) (m / k)
      have s : |1 - A.fl (m / k)| ≤ |(1 : ℝ)| + |A.fl (m / k)| := abs_sub _ _
      rw [abs_one] at s
      linarith
    have r2' : |A.fl (1 - A.fl (m / k)) - (1 - A.fl (m / k))| ≤ 1.2e-16 * (1 + 1.1 * |m / k|) := r2.trans (mul_le_mul hu b (abs_nonneg _) (by norm_num))
    unfold XR.lt
    rw [abs_le] at r1' r2'
    rw [lt_abs] at hc
    rcases hc with hc | hc
    · constructor <;> intro hlt <;> linarith [r1'.1, r1'.2, r2'.1, r2'.2]
    · constructor <;> intro _ <;> linarith [r1'.1, r1'.2, r2'.1, r2'.2]
  -- the speed
  have g0 : 0 ≤ magnitude p.vec := Real.sqrt_nonneg _
  have e3 : (divXF A (.fin (magnitudeF A p.vec)) (XR.ofOption p.delay)).abs = .fin |A.fl (magnitudeF A p.vec / d)| := by
    rw [hd]; simp only [XR.ofOption, divXF, XR.div, if_neg d0, flX, XR.abs]
  have e4 : (XR.divO (some (magnitude p.vec)) p.delay).abs = .fin (magnitude p.vec / |d|) := by
    rw [hd]; simp only [XR.divO, XR.div, if_neg d0, XR.abs, abs_div, abs_of_nonneg g0]
  have vn : abs (|A.fl (magnitudeF A p.vec / d)| - magnitude p.vec / |d|) ≤ 6e-16 * (magnitude p.vec / |d|) := by
    have nm := C260_magnitude h p.vec
    have g0' := nm.nonneg h1 g0
    have n2 := nm.div h0 h1 g0 dp (Near.refl (u := 2 ^ (-53 : ℤ)) |d|)
    have n3 := near_abs h.rounds h1 (magnitudeF A p.vec / d)
    rw [abs_div, abs_of_nonneg g0'] at n3
    have n4 := n2.trans h0 h1 n3
    have nd := near_diff h0 h1 (by positivity) n4
    refine nd.trans (mul_le_mul_of_nonneg_right ?_ (by positivity))
    norm_num
  have c6 : XR.lt (.fin (optVal o "minvelocity")) (.fin |A.fl (magnitudeF A p.vec / d)|) ↔ XR.lt (.fin (optVal o "minvelocity")) (.fin (magnitude p.vec / |d|)) := by
    have q : 0 ≤ magnitude p.vec / |d| := by positivity
    unfold XR.lt
    rw [abs_le] at vn
    rw [lt_abs] at hmin
    rcases hmin with hc | hc
    · constructor <;> intro _ <;> linarith [vn.1, vn.2]
    · constructor <;> intro hlt <;> linarith [vn.1, vn.2]
  have c7 : XR.lt (.fin |A.fl (magnitudeF A p.vec / d)|) (.fin (optVal o "maxvelocity")) ↔ XR.lt (.fin (magnitude p.vec / |d|)) (.fin (optVal o "maxvelocity")) := by
    have q : 0 ≤ magnitude p.vec / |d| := by positivity
    unfold XR.lt
    rw [abs_le] at vn
    rw [lt_abs] at hmax
    rcases hmax with hc | hc
    · constructor <;> intro hlt <;> linarith [vn.1, vn.2]
    · constructor <;> intro _ <;> linarith [vn.1, vn.2]
  have c8 : XR.lt (XR.ofOption p.peak) (.fin (optVal o "mincorr")) ↔ ltO p.peak (optVal o "mincorr") := by
    rw [hk]; simp [XR.ofOption, XR.lt, ltO]
  have c9 : (XR.ofOption p.peak = .nan) ↔ p.peak = none := by rw [hk]; simp [XR.ofOption]
  have c10 : (XR.ofOption p.meanCorr = .nan) ↔ p.meanCorr = none := by rw [hm]; simp [XR.ofOption]
  unfold pairFlagF pairFlag
  dsimp only
  rw [e1, e2, e3, e4, propext c1, propext c2, propext c3, propext c4, propext c5, propext c6, propext c7, propext c8, propext c9, propext c10]
  congr!
end

/-- The hypotheses of C282 hold for two sites 5 m apart, a delay of 2 s, records with a gap and limits of 0; and for three samples of 0.1. -/
example : FloatLike (2 ^ (-53 : ℤ)) ⟨even53, sumEven⟩ ∧ SigClear [] [some 0, some 2, none] ∧ (1e-15 : ℝ) * (1 + |0.5 / 1|) < |1 - 0.5 / 1 - optVal [] "mincorr"| ∧
    1e-15 * (magnitude (3, 4) / |2|) < abs (magnitude (3, 4) / |2| - optVal [] "minvelocity") ∧ (∀ v ∈ ([some 0.1, some 0.1, some 0.1] : List (Option ℝ)).filterMap id, v = 0.1) := by
  have f : ([some 0, some 2, none] : List (Option ℝ)).filterMap id = [0, 2] := by simp
  have v : valid [some 0, some 2, none] = [0, 2] := f
  have o : ∀ k, optVal [] k = 0 := fun k => by simp [optVal, dictGet?]
  have m : magnitude (3, 4) = 5 := by
    unfold magnitude
    rw [Real.sqrt_eq_iff_mul_self_eq (by norm_num) (by norm_num)]; norm_num
  refine ⟨floatEven, ⟨by rw [f]; simp, by rw [f]; simp, by rw [f]; simp; norm_num, ⟨2, by rw [f]; simp⟩, ?_, ?_⟩, ?_, ?_, ?_⟩
  · intro d hd
    have : variance [0, 2] = 1 := by norm_num [variance, mean]
    simp only [nanstd, nanvar, v, this] at hd
    simp at hd
    rw [← hd, abs_of_pos (by norm_num)]
    norm_num
  · intro r hr
    have : mean [0, 2] = 1 := by norm_num [mean]
    have mx : ([0, 2] : List ℝ).max? = some 2 := by simp [List.max?]
    simp only [varRatio, nanmean, nanmax, v, meanO, this, mx] at hr
    simp [XR.divO, XR.div, XR.oneSub] at hr
    rw [o, ← hr, abs_of_pos (by norm_num)]
    norm_num
  · rw [o]
    rw [abs_of_pos (by norm_num), abs_of_pos (by norm_num)]
    norm_num
  · rw [o, m, abs_of_pos (by norm_num : (0 : ℝ) < 2), abs_of_pos (by norm_num)]
    norm_num
  · simp

end SST.Round
