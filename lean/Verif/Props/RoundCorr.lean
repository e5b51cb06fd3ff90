import Verif.Model.RoundCorr
import Verif.Spec.RoundCorr
import Verif.Proofs.RoundErr
import Verif.Props.NoiseDelay
import Verif.Props.RoundIndex

/-!
# C268: delays from the cross-correlation with rounding
-/

namespace SST.Round
open SST SST.Spec SST.Corr SST.Dft SST.Props.NoiseDelay

variable {u : ℝ} {A : Arith}

theorem sum_map_ext (x : List ℝ) (f : ℝ → ℝ) : (x.map f).sum = ∑ i ∈ Finset.range x.length, f (ext x i) := by
  rw [← sum_ext, List.length_map]
  apply Finset.sum_congr rfl
  intro i hi
  rw [ext_get (by simpa using hi), ext_get (by simpa using hi)]
  simp

theorem rss_eq (x : List ℝ) : rss x = Real.sqrt (energyOf x) := rfl

theorem rss_sq (x : List ℝ) : rss x ^ 2 = energyOf x := Real.sq_sqrt (energyOf_nonneg x)

theorem rss_nonneg (x : List ℝ) : 0 ≤ rss x := Real.sqrt_nonneg _

theorem sum_sq_le (x : List ℝ) (f : ℝ → ℝ) : (x.map f).sum ^ 2 ≤ x.length * (x.map fun v => f v ^ 2).sum := by
  rw [sum_map_ext, sum_map_ext x fun v => f v ^ 2]
  have := sq_sum_le_card_mul_sum_sq (s := Finset.range x.length) (f := fun i => f (ext x i))
  simpa using this

/-- The mean of the samples as computed. -/
theorem meanF_near (h : FloatLike u A) {x : List ℝ} (hx : x ≠ []) : |meanF A x - x.sum / x.length| ≤ ((1 + u) ^ x.length - 1) * ((x.map fun v => |v|).sum / x.length) := by
  have h0 := u_nonneg h.rounds
  have n0 : (0 : ℝ) < x.length := by exact_mod_cast List.length_pos_iff.mpr hx
  have a := (h.sums x hx).abs_sub h.rounds
  have b := h.rounds (A.sum x / x.length)
  set S := (x.map fun v => |v|).sum with hS
  have sS : |x.sum| ≤ S := by
    have := sum_abs_map_le x id
    simpa using this
  set m := x.length with hm
  have e1 : |A.sum x / m - x.sum / m| ≤ ((1 + u) ^ (m - 1) - 1) * (S / m) := by
    rw [← sub_div, abs_div, abs_of_pos n0, ← mul_div_assoc, div_le_div_iff_of_pos_right n0]
    exact a
  have e2 : |x.sum / m| ≤ S / m := by rw [abs_div, abs_of_pos n0, div_le_div_iff_of_pos_right n0]; exact sS
  have e3 : |A.sum x / m| ≤ (1 + u) ^ (m - 1) * (S / m) := by
    have := abs_sub_abs_le_abs_sub (A.sum x / m) (x.sum / m)
    linarith
  have e4 := mul_le_mul_of_nonneg_left e3 h0
  have m1 : m = m - 1 + 1 := by
    have : 0 < m := List.length_pos_iff.mpr hx
    omega
  have p : (1 + u) ^ m = (1 + u) ^ (m - 1) * (1 + u) := by
    conv_lhs => rw [m1]
    rw [pow_succ]
  have tri := abs_sub_le (A.fl (A.sum x / m)) (A.sum x / m) (x.sum / m)
  unfold meanF
  rw [← hm, p]
  calc _ ≤ u * ((1 + u) ^ (m - 1) * (S / m)) + ((1 + u) ^ (m - 1) - 1) * (S / m) := by linarith
    _ = _ := by ring

theorem rss_shift {α : Type} (l : List α) (f g : α → ℝ) {P q : ℝ} (hq : 0 ≤ q) (hP : 0 ≤ P) (hg : ∀ v ∈ l, |g v| ≤ |f v| + q) (hf : (l.map fun v => f v ^ 2).sum ≤ P ^ 2) :
    (l.map fun v => g v ^ 2).sum ≤ (P + Real.sqrt l.length * q) ^ 2 := by
  have a : (l.map fun v => g v ^ 2).sum ≤ (l.map fun v => f v ^ 2).sum + 2 * q * (l.map fun v => |f v|).sum + l.length * q ^ 2 := by
    clear hf
    induction l with
    | nil => simp
    | cons v l ih =>
      simp only [List.map_cons, List.sum_cons, List.length_cons, Nat.cast_add, Nat.cast_one]
      have i := ih fun w hw => hg w (by simp [hw])
      have j := hg v (by simp)
      have k : g v ^ 2 ≤ (|f v| + q) ^ 2 := by
        rw [← sq_abs (g v)]
        exact pow_le_pow_left₀ (abs_nonneg _) j 2
      have e : (|f v| + q) ^ 2 = f v ^ 2 + 2 * q * |f v| + q ^ 2 := by rw [add_sq, sq_abs]; ring
      rw [e] at k
      linarith
  have b : (l.map fun v => |f v|).sum ≤ Real.sqrt l.length * P := by
    refine abs_le_of_sq_le_sq' ?_ (by positivity) |>.2
    have c := sum_sq_le (l.map f) fun v => |v|
    rw [List.map_map, List.map_map, List.length_map] at c
    have e1 : ((fun v : ℝ => |v|) ∘ f) = fun v => |f v| := rfl
    have e2 : ((fun v : ℝ => |v| ^ 2) ∘ f) = fun v => f v ^ 2 := by funext v; simp [sq_abs]
    rw [e1, e2] at c
    rw [mul_pow, Real.sq_sqrt (by positivity)]
    exact c.trans (mul_le_mul_of_nonneg_left hf (by positivity))
  have s : Real.sqrt l.length ^ 2 = l.length := Real.sq_sqrt (by positivity)
  have e : (P + Real.sqrt l.length * q) ^ 2 = P ^ 2 + 2 * q * (Real.sqrt l.length * P) + Real.sqrt l.length ^ 2 * q ^ 2 := by ring
  rw [e, s]
  have := mul_le_mul_of_nonneg_left b (by positivity : 0 ≤ 2 * q)
  linarith

/-- What is correlated is the record without its mean and a small disturbance. -/
theorem condF_disturbed (h : FloatLike u A) (s : String) {x : List ℝ} (hx : x ≠ []) :
    ∃ d : List ℝ, d.length = x.length ∧ condF A s x = List.zipWith (· + ·) (conditioned s x) d ∧ rss d ≤ ((1 + u) ^ (x.length + 1) - 1) * rss x := by
  have h0 := u_nonneg h.rounds
  have n0 : (0 : ℝ) < x.length := by exact_mod_cast List.length_pos_iff.mpr hx
  have p1 : 1 ≤ (1 + u) ^ x.length := one_le_pow₀ (by linarith)
  by_cases hs : s = "coeff"
  · refine ⟨x.map fun v => A.fl (v - meanF A x) - (v - x.sum / x.length), by simp, ?_, ?_⟩
    · unfold condF conditioned demean
      simp only [hs, if_true]
      rw [List.zipWith_map, List.zipWith_self]
      apply List.map_congr_left
      intro v _
      ring
    · unfold rss
      refine Real.sqrt_le_iff.mpr ⟨mul_nonneg (by have := one_le_pow₀ (n := x.length + 1) (by linarith : 1 ≤ 1 + u); linarith) (Real.sqrt_nonneg _), ?_⟩
      rw [List.map_map]
      set q := (1 + u) * (((1 + u) ^ x.length - 1) * ((x.map fun v => |v|).sum / x.length)) with hq
      have s0 : 0 ≤ (x.map fun v => |v|).sum := List.sum_nonneg (by simp only [List.mem_map]; rintro _ ⟨v, -, rfl⟩; exact abs_nonneg _)
      have q0 : 0 ≤ q := mul_nonneg (by linarith) (mul_nonneg (by linarith) (by positivity))
      have r := rss_shift x (fun v => u * (v - x.sum / x.length)) (fun v => A.fl (v - meanF A x) - (v - x.sum / x.length)) (P := u * rss x) q0 (mul_nonneg h0 (rss_nonneg x)) (by
        intro v _
        have a := h.rounds (v - meanF A x)
        have b := meanF_near h hx
        rw [abs_mul, abs_of_nonneg h0]
        have e1 : |v - meanF A x| ≤ |v - x.sum / x.length| + |meanF A x - x.sum / x.length| := by
          have : v - meanF A x = (v - x.sum / x.length) - (meanF A x - x.sum / x.length) := by ring
          rw [this]; exact abs_sub _ _
        have e2 : |A.fl (v - meanF A x) - (v - x.sum / x.length)| ≤ |A.fl (v - meanF A x) - (v - meanF A x)| + |meanF A x - x.sum / x.length| := by
          have : A.fl (v - meanF A x) - (v - x.sum / x.length) = (A.fl (v - meanF A x) - (v - meanF A x)) - (meanF A x - x.sum / x.length) := by ring
          rw [this]; exact abs_sub _ _
        have e3 := mul_le_mul_of_nonneg_left e1 h0
        have e4 := mul_le_mul_of_nonneg_left b (by linarith : 0 ≤ 1 + u)
        rw [← hq] at e4
        linarith) (by
        have := energy_conditioned "coeff" x
        unfold conditioned demean energyOf at this
        simp only [if_true, List.map_map] at this
        rw [mul_pow, rss_sq]
        have e : (x.map fun v => (u * (v - x.sum / x.length)) ^ 2).sum = u ^ 2 * (x.map ((fun v => v ^ 2) ∘ fun v => v - x.sum / x.length)).sum := by
          rw [← List.sum_map_mul_left]
          congr 1
          apply List.map_congr_left
          intro v _
          simp only [Function.comp]; ring
        rw [e]
        exact mul_le_mul_of_nonneg_left this (sq_nonneg u))
      refine le_trans r ?_
      have cs : (x.map fun v => |v|).sum ≤ Real.sqrt x.length * rss x := by
        refine abs_le_of_sq_le_sq' ?_ (mul_nonneg (Real.sqrt_nonneg _) (rss_nonneg x)) |>.2
        have c := sum_sq_le x fun v => |v|
        simp only [sq_abs] at c
        rw [mul_pow, Real.sq_sqrt n0.le, rss_sq]
        exact c
      have sn : Real.sqrt x.length * Real.sqrt x.length = x.length := Real.mul_self_sqrt n0.le
      have sq : Real.sqrt x.length * q ≤ (1 + u) * ((1 + u) ^ x.length - 1) * rss x := by
        have e : Real.sqrt x.length * q = (1 + u) * ((1 + u) ^ x.length - 1) * (Real.sqrt x.length * (x.map fun v => |v|).sum / x.length) := by rw [hq]; ring
        rw [e]
        refine mul_le_mul_of_nonneg_left ?_ (mul_nonneg (by linarith) (by linarith))
        rw [div_le_iff₀ n0]
        calc _ ≤ Real.sqrt x.length * (Real.sqrt x.length * rss x) := mul_le_mul_of_nonneg_left cs (Real.sqrt_nonneg _)
          _ = rss x * x.length := by rw [← mul_assoc, sn]; ring
      refine pow_le_pow_left₀ (add_nonneg (mul_nonneg h0 (rss_nonneg x)) (mul_nonneg (Real.sqrt_nonneg _) q0)) ?_ 2
      change u * rss x + Real.sqrt x.length * q ≤ ((1 + u) ^ (x.length + 1) - 1) * rss x
      rw [pow_succ]
      linarith
  · refine ⟨List.replicate x.length 0, by simp, ?_, ?_⟩
    · unfold condF conditioned
      simp only [hs, if_false]
      refine List.ext_getElem (by simp) fun i h1 h2 => ?_
      simp
    · have : rss (List.replicate x.length 0) = 0 := by unfold rss; simp
      rw [this]
      exact mul_nonneg (by have := one_le_pow₀ (n := x.length + 1) (by linarith : 1 ≤ 1 + u); linarith) (rss_nonneg x)

theorem rss_add {x d : List ℝ} (h : x.length = d.length) : rss (List.zipWith (· + ·) x d) ≤ rss x + rss d := by
  rw [rss_eq (List.zipWith (· + ·) x d)]
  refine Real.sqrt_le_iff.mpr ⟨add_nonneg (rss_nonneg x) (rss_nonneg d), ?_⟩
  rw [← xcorrAt_zero_self, xcorr_add_left h, xcorr_add_right h, xcorr_add_right h]
  have a : ∀ a b : List ℝ, xcorrAt a b 0 ≤ rss a * rss b := fun a b => (le_abs_self _).trans (abs_xcorrAt_le a b 0)
  have := a x x; have := a x d; have := a d x; have := a d d
  nlinarith

/-- Every correlation as computed. -/
theorem corr_err (h : FloatLike u A) {η : ℝ} (hη : 0 ≤ η) {correl : List ℝ → List ℝ → List ℝ} (s : String) {x y : List ℝ} (hx : x ≠ []) (hy : y.length = x.length)
    (hc : CorrNear x.length η correl) {k : ℕ} (hk : k < 2 * x.length - 1) : ∃ v, (correl (condF A s x) (condF A s y))[k]? = some v ∧
      |v - xcorrAt (conditioned s x) (conditioned s y) ((k : ℤ) - (x.length - 1))| ≤ ((1 + η) * (1 + u) ^ (2 * x.length + 2) - 1) * (rss x * rss y) := by
  have h0 := u_nonneg h.rounds
  have hy0 : y ≠ [] := by
    intro h0
    rw [h0] at hy
    exact hx (List.length_eq_zero_iff.1 hy.symm)
  obtain ⟨d, dl, dx, dr⟩ := condF_disturbed h s hx
  obtain ⟨e, el, ey, er⟩ := condF_disturbed h s hy0
  rw [hy] at er el
  have cx : (conditioned s x).length = x.length := conditioned_length s x
  have cy : (conditioned s y).length = x.length := (conditioned_length s y).trans hy
  obtain ⟨-, hk'⟩ := hc (condF A s x) (condF A s y) (by rw [dx, List.length_zipWith]; omega) (by rw [ey, List.length_zipWith]; omega)
  obtain ⟨v, hv, ve⟩ := hk' k hk
  refine ⟨v, hv, ?_⟩
  set l : ℤ := (k : ℤ) - (x.length - 1)
  set G := (1 + u) ^ (x.length + 1) with hG
  have G1 : 1 ≤ G := one_le_pow₀ (by linarith)
  have GG : (1 + u) ^ (2 * x.length + 2) = G * G := by rw [hG, ← pow_add]; congr 1; ring
  have sx : rss (conditioned s x) ≤ rss x := Real.sqrt_le_sqrt (energy_conditioned s x)
  have sy : rss (conditioned s y) ≤ rss y := Real.sqrt_le_sqrt (energy_conditioned s y)
  have X0 := rss_nonneg x; have Y0 := rss_nonneg y
  have tx : rss (condF A s x) ≤ G * rss x := by
    rw [dx]
    have := rss_add (x := conditioned s x) (d := d) (by rw [cx, dl])
    linarith
  have ty : rss (condF A s y) ≤ G * rss y := by
    rw [ey]
    have := rss_add (x := conditioned s y) (d := e) (by rw [cy, el])
    linarith
  have v1 : |v - xcorrAt (condF A s x) (condF A s y) l| ≤ η * (G * rss x * (G * rss y)) :=
    ve.trans (mul_le_mul_of_nonneg_left (mul_le_mul tx ty (rss_nonneg _) (by positivity)) hη)
  have ex : xcorrAt (condF A s x) (condF A s y) l - xcorrAt (conditioned s x) (conditioned s y) l =
      xcorrAt d (conditioned s y) l + xcorrAt (conditioned s x) e l + xcorrAt d e l := by
    rw [dx, ey, xcorr_add_left (by rw [cx, dl]), xcorr_add_right (by rw [cy, el]), xcorr_add_right (by rw [cy, el])]
    ring
  have bd : ∀ {a b : List ℝ} {P Q : ℝ}, rss a ≤ P → rss b ≤ Q → |xcorrAt a b l| ≤ P * Q := fun {a b P Q} ha hb =>
    (abs_xcorrAt_le a b l).trans (mul_le_mul ha hb (rss_nonneg _) ((rss_nonneg _).trans ha))
  have v2 : |xcorrAt (condF A s x) (condF A s y) l - xcorrAt (conditioned s x) (conditioned s y) l| ≤
      (G - 1) * rss x * rss y + rss x * ((G - 1) * rss y) + (G - 1) * rss x * ((G - 1) * rss y) := by
    rw [ex]
    exact (abs_add_three _ _ _).trans (add_le_add (add_le_add (bd dr sy) (bd sx er)) (bd dr er))
  have tri := abs_sub_le v (xcorrAt (condF A s x) (condF A s y) l) (xcorrAt (conditioned s x) (conditioned s y) l)
  rw [GG]
  calc _ ≤ _ := tri.trans (add_le_add v1 v2)
    _ = _ := by ring

open Classical in
/-- The lag and the value found by `argmax`. -/
theorem delayF_spec (h : FloatLike u A) {η : ℝ} (hη : 0 ≤ η) {correl : List ℝ → List ℝ → List ℝ} (dt : ℝ) (s : String) {x y : List ℝ} (hx : x ≠ []) (hy : y.length = x.length)
    (hc : CorrNear x.length η correl) : ∃ lag v, IsLag x.length lag ∧
      (∀ l, IsLag x.length l → xcorrAt (conditioned s x) (conditioned s y) l - 2 * ((1 + η) * (1 + u) ^ (2 * x.length + 2) - 1) * (rss x * rss y) ≤
        xcorrAt (conditioned s x) (conditioned s y) lag) ∧
      |v - xcorrAt (conditioned s x) (conditioned s y) lag| ≤ ((1 + η) * (1 + u) ^ (2 * x.length + 2) - 1) * (rss x * rss y) ∧
      delayF A correl dt s x y = (if (timesF A v (scaleF A s (condF A s x) (condF A s y))).lt (.fin (1e-10)) then 0 else -A.fl (lag * dt),
        timesF A v (scaleF A s (condF A s x) (condF A s y))) := by
  have n0 : 0 < x.length := List.length_pos_iff.mpr hx
  have len : (correl (condF A s x) (condF A s y)).length = 2 * x.length - 1 := by
    obtain ⟨d, dl, dx, -⟩ := condF_disturbed h s hx
    obtain ⟨e, el, ey, -⟩ := condF_disturbed (A := A) h s (x := y) (by rintro rfl; simp at hy; omega)
    have cx : (conditioned s x).length = x.length := conditioned_length s x
    have cy : (conditioned s y).length = x.length := (conditioned_length s y).trans hy
    exact (hc (condF A s x) (condF A s y) (by rw [dx, List.length_zipWith]; omega) (by rw [ey, List.length_zipWith]; omega)).1
  obtain ⟨hk, mx, -⟩ := argmax_spec (l := correl (condF A s x) (condF A s y)) (by rw [← List.length_pos_iff]; omega)
  set c := correl (condF A s x) (condF A s y) with hcc
  have hk2 : argmax c < 2 * x.length - 1 := by rw [← len]; exact hk
  obtain ⟨v, hv, ve⟩ := corr_err h hη s hx hy hc hk2
  rw [← hcc] at hv
  refine ⟨(argmax c : ℤ) - (x.length - 1), v, ⟨by omega, by omega⟩, fun l hl => ?_, ve, ?_⟩
  · have il : (l + (x.length - 1)).toNat < 2 * x.length - 1 := by have := hl.1; have := hl.2; omega
    obtain ⟨w, hw, we⟩ := corr_err h hη s hx hy hc il
    have e : (((l + (x.length - 1)).toNat : ℕ) : ℤ) - (x.length - 1) = l := by have := hl.1; omega
    rw [e] at we
    rw [← hcc] at hw
    have le : w ≤ v := by
      have a := mx w (List.mem_of_getElem? hw)
      have b : c[argmax c] = v := by
        rw [List.getElem?_eq_getElem hk, Option.some.injEq] at hv
        exact hv
      rwa [b] at a
    have a := (abs_le.mp we).1
    have b := (abs_le.mp ve).2
    linarith
  · have lg : (((lagsOf x.length x.length).map fun (k : ℤ) => A.fl ((k : ℝ) * dt))[argmax c]?).getD 0 = A.fl (((argmax c : ℤ) - (x.length - 1) : ℤ) * dt) := by
      rw [List.getElem?_map, lagsOf_get (by omega)]
      rfl
    unfold delayF
    simp only [← hcc, lg, hv, Option.getD_some]

/-- C268: with correlations computed with errors at most `η` times the sizes of the records, the lag that `compute_delays` finds has an exact correlation (without means for the scaling
'coeff') that falls short of the largest by at most `2 ((1+η)(1+u)^(2n+2) - 1)` times the sizes of the records; the delay is minus that lag in units of time, or 0 where the peak is weak. -/
theorem C268_margin (h : FloatLike u A) {η : ℝ} (hη : 0 ≤ η) {correl : List ℝ → List ℝ → List ℝ} (dt : ℝ) (s : String) {x y : List ℝ} (hx : x ≠ []) (hy : y.length = x.length)
    (hc : CorrNear x.length η correl) : ∃ lag, IsLag x.length lag ∧
      (∀ l, IsLag x.length l → xcorrAt (conditioned s x) (conditioned s y) l - 2 * ((1 + η) * (1 + u) ^ (2 * x.length + 2) - 1) * (rss x * rss y) ≤
        xcorrAt (conditioned s x) (conditioned s y) lag) ∧
      (((delayF A correl dt s x y).1 = -A.fl (lag * dt) ∧ ¬ (delayF A correl dt s x y).2.lt (.fin (1e-10))) ∨
        ((delayF A correl dt s x y).1 = 0 ∧ (delayF A correl dt s x y).2.lt (.fin (1e-10)))) := by
  obtain ⟨lag, v, h1, h2, -, h3⟩ := delayF_spec h hη dt s hx hy hc
  refine ⟨lag, h1, h2, ?_⟩
  rw [h3]
  simp only
  split_ifs with hp
  · exact Or.inr ⟨rfl, hp⟩
  · exact Or.inl ⟨rfl, hp⟩

theorem sum_map_minus {α : Type} (l : List α) (f g : α → ℝ) : (l.map f).sum - (l.map g).sum = (l.map fun x => f x - g x).sum := by
  induction l with
  | nil => simp
  | cons x l ih => simp only [List.map_cons, List.sum_cons, ← ih]; ring

/-- C268: direct sums of rounded products are accurate to `(1+u)^n - 1`. -/
theorem C268_direct (h : FloatLike u A) (n : ℕ) : CorrNear n ((1 + u) ^ n - 1) (directF A) := by
  intro x y hx hy
  have h0 := u_nonneg h.rounds
  refine ⟨by simp [directF, hx, hy]; omega, fun k hk => ?_⟩
  set f : ℕ → ℝ := fun l => at0 x l * atZ y ((l : ℤ) - k + (y.length - 1)) with hf
  set L : List ℕ := (List.range x.length).filter fun (l : ℕ) => 0 ≤ (l : ℤ) - k + (y.length - 1) ∧ (l : ℤ) - k + (y.length - 1) < y.length with hL
  refine ⟨A.sum (L.map fun l => A.fl (f l)), ?_, ?_⟩
  · unfold directF
    rw [List.getElem?_map, List.getElem?_range (by omega)]
    rfl
  have tot : ∀ g : ℝ → ℝ, g 0 = 0 → (L.map fun l => g (f l)).sum = ∑ l ∈ Finset.range x.length, g (ext x l * ext y ((l : ℤ) - ((k : ℤ) - (n - 1)))) := by
    intro g g0
    have e1 : (L.map fun l => g (f l)).sum = ((List.range x.length).map fun l => g (f l)).sum := by
      rw [hL]
      generalize List.range x.length = R
      induction R with
      | nil => rfl
      | cons a R ih =>
        rw [List.filter_cons]
        split_ifs with ha
        · simp only [List.map_cons, List.sum_cons, ih]
        · have : f a = 0 := by
            rw [hf]
            simp only
            rw [atZ_ext]
            simp only [decide_eq_true_eq, not_and_or, not_le, not_lt] at ha
            rcases ha with ha | ha
            · rw [ext_of_neg ha, mul_zero]
            · rw [ext_of_ge ha, mul_zero]
          simp only [List.map_cons, List.sum_cons, this, g0, zero_add, ih]
    rw [e1, ← List.sum_toFinset _ List.nodup_range, List.toFinset_range]
    refine Finset.sum_congr rfl fun l _ => ?_
    rw [hf]
    simp only
    rw [at0_ext, atZ_ext, hy]
    congr 3
    ring
  have ex : xcorrAt x y ((k : ℤ) - (n - 1)) = (L.map f).sum := by
    rw [xcorrAt_range]
    have := tot id rfl
    simp only [id] at this
    exact this.symm
  have ab : (L.map fun l => |f l|).sum ≤ rss x * rss y := by
    rw [tot (fun v => |v|) abs_zero]
    have a := abs_xcorrAt_le (x.map fun v => |v|) (y.map fun v => |v|) ((k : ℤ) - (n - 1))
    rw [xcorrAt_range, List.length_map] at a
    have e : ∀ z : List ℝ, energyOf (z.map fun v => |v|) = energyOf z := by
      intro z
      unfold energyOf
      rw [List.map_map]
      congr 1
      apply List.map_congr_left
      intro v _
      simp [sq_abs]
    rw [e, e] at a
    refine le_trans (le_of_eq ?_) ((le_abs_self _).trans a)
    refine Finset.sum_congr rfl fun l _ => ?_
    rw [ext_map _ abs_zero, ext_map _ abs_zero, abs_mul]
  have Ln : L.length ≤ n := by
    rw [hL, ← hx]
    exact (List.length_filter_le _ _).trans (by simp)
  rw [ex]
  by_cases hLe : L = []
  · rw [hLe]
    simp only [List.map_nil, h.empty, List.sum_nil, sub_self, abs_zero]
    have := one_le_pow₀ (n := n) (by linarith : 1 ≤ 1 + u)
    exact mul_nonneg (by linarith) (mul_nonneg (rss_nonneg _) (rss_nonneg _))
  have L1 : 1 ≤ L.length := List.length_pos_iff.mpr hLe
  have sm := (h.sums (L.map fun l => A.fl (f l)) (by simpa using hLe)).abs_sub h.rounds
  rw [List.length_map, List.map_map] at sm
  have r1 : (L.map ((fun v => |v|) ∘ fun l => A.fl (f l))).sum ≤ (1 + u) * (L.map fun l => |f l|).sum := by
    rw [← List.sum_map_mul_left]
    refine List.sum_le_sum fun l _ => ?_
    have := h.rounds (f l)
    have := abs_sub_abs_le_abs_sub (A.fl (f l)) (f l)
    simp only [Function.comp]
    linarith
  have r2 : |(L.map fun l => A.fl (f l)).sum - (L.map f).sum| ≤ u * (L.map fun l => |f l|).sum := by
    rw [sum_map_minus, ← List.sum_map_mul_left]
    refine (sum_abs_map_le L _).trans (List.sum_le_sum fun l _ => ?_)
    exact h.rounds (f l)
  set S := (L.map fun l => |f l|).sum with hS
  have S0 : 0 ≤ S := by
    rw [hS]
    refine List.sum_nonneg fun v hv => ?_
    obtain ⟨l, -, rfl⟩ := List.mem_map.mp hv
    exact abs_nonneg _
  have p1 : 1 ≤ (1 + u) ^ (L.length - 1) := one_le_pow₀ (by linarith)
  have tri := abs_sub_le (A.sum (L.map fun l => A.fl (f l))) (L.map fun l => A.fl (f l)).sum (L.map f).sum
  have pm : (1 + u) ^ (L.length - 1) * (1 + u) ≤ (1 + u) ^ n := by
    rw [← pow_succ]
    exact pow_le_pow_right₀ (by linarith) (by omega)
  have sm2 := mul_le_mul_of_nonneg_left r1 (sub_nonneg.mpr p1)
  have pn := one_le_pow₀ (n := n) (by linarith : 1 ≤ 1 + u)
  calc _ ≤ ((1 + u) ^ (L.length - 1) - 1) * ((1 + u) * S) + u * S := by linarith
    _ = ((1 + u) ^ (L.length - 1) * (1 + u) - 1) * S := by ring
    _ ≤ ((1 + u) ^ n - 1) * S := mul_le_mul_of_nonneg_right (by linarith) S0
    _ ≤ _ := mul_le_mul_of_nonneg_left ab (by linarith)

theorem fl_abs_le (h : FloatLike u A) (x : ℝ) : |A.fl x| ≤ (1 + u) * |x| := by
  have := h.rounds x
  have := abs_sub_abs_le_abs_sub (A.fl x) x
  linarith

theorem fl_ge (h : FloatLike u A) {x : ℝ} (hx : 0 ≤ x) : (1 - u) * x ≤ A.fl x := by
  have := h.rounds x
  rw [abs_of_nonneg hx] at this
  have := (abs_le.mp this).1
  linarith

/-- The standard deviation as computed is at most about twice the size of the record over the root of its length. -/
theorem stdF_le (h : FloatLike u A) {x : List ℝ} (hx : x ≠ []) : 0 ≤ stdF A x ∧ Real.sqrt x.length * stdF A x ≤ (1 + u) ^ (x.length + 2) * (1 + (1 + u) ^ x.length) * rss x := by
  have h0 := u_nonneg h.rounds
  have n0 : (0 : ℝ) < x.length := by exact_mod_cast List.length_pos_iff.mpr hx
  have sn : Real.sqrt x.length * Real.sqrt x.length = x.length := Real.mul_self_sqrt n0.le
  have s0 : 0 < Real.sqrt x.length := Real.sqrt_pos.mpr n0
  have cs : (x.map fun v => |v|).sum ≤ Real.sqrt x.length * rss x := by
    refine abs_le_of_sq_le_sq' ?_ (mul_nonneg (Real.sqrt_nonneg _) (rss_nonneg x)) |>.2
    have c := sum_sq_le x fun v => |v|
    simp only [sq_abs] at c
    rw [mul_pow, Real.sq_sqrt n0.le, rss_sq]
    exact c
  set G := (1 + u) ^ x.length with hG
  have G1 : 1 ≤ G := one_le_pow₀ (by linarith)
  have mb : Real.sqrt x.length * |meanF A x| ≤ G * rss x := by
    have a := meanF_near h hx
    rw [← hG] at a
    set S := (x.map fun v => |v|).sum with hS
    have b : |x.sum / x.length| ≤ S / x.length := by
      rw [abs_div, abs_of_pos n0, div_le_div_iff_of_pos_right n0]
      have := sum_abs_map_le x id
      simpa using this
    have c := abs_sub_abs_le_abs_sub (meanF A x) (x.sum / x.length)
    have d : |meanF A x| ≤ G * (S / x.length) := by linarith
    refine (mul_le_mul_of_nonneg_left d s0.le).trans ?_
    have e : Real.sqrt x.length * (G * (S / x.length)) = G * (Real.sqrt x.length * S / x.length) := by ring
    rw [e]
    refine mul_le_mul_of_nonneg_left ?_ (by linarith)
    rw [div_le_iff₀ n0]
    calc _ ≤ Real.sqrt x.length * (Real.sqrt x.length * rss x) := mul_le_mul_of_nonneg_left cs s0.le
      _ = rss x * x.length := by rw [← mul_assoc, sn]; ring
  have r := rss_shift x (fun v => v) (fun v => v - meanF A x) (P := rss x) (q := |meanF A x|) (abs_nonneg _) (rss_nonneg x) (fun v _ => abs_sub _ _) (by rw [rss_sq]; rfl)
  have r' : (x.map fun v => (v - meanF A x) ^ 2).sum ≤ ((1 + G) * rss x) ^ 2 := by
    refine r.trans (pow_le_pow_left₀ (add_nonneg (rss_nonneg x) (by positivity)) ?_ 2)
    linarith
  have sq : ∀ v : ℝ, |A.fl (A.fl (v - meanF A x) ^ 2)| ≤ (1 + u) ^ 3 * (v - meanF A x) ^ 2 := by
    intro v
    have a := fl_abs_le h (A.fl (v - meanF A x) ^ 2)
    have b := fl_abs_le h (v - meanF A x)
    have c := pow_le_pow_left₀ (abs_nonneg _) b 2
    rw [mul_pow, sq_abs, sq_abs] at c
    rw [abs_of_nonneg (sq_nonneg (A.fl (v - meanF A x)))] at a
    calc _ ≤ _ := a
      _ ≤ (1 + u) * ((1 + u) ^ 2 * (v - meanF A x) ^ 2) := mul_le_mul_of_nonneg_left c (by linarith)
      _ = _ := by ring
  set l := x.map fun (v : ℝ) => A.fl (A.fl (v - meanF A x) ^ 2) with hl
  have sm := (h.sums l (by simpa [hl] using hx)).abs_sub h.rounds
  have la : (l.map fun v => |v|).sum ≤ (1 + u) ^ 3 * ((1 + G) * rss x) ^ 2 := by
    rw [hl, List.map_map]
    refine le_trans ?_ (mul_le_mul_of_nonneg_left r' (by positivity))
    rw [← List.sum_map_mul_left]
    exact List.sum_le_sum fun v _ => sq v
  have ls : |l.sum| ≤ (l.map fun v => |v|).sum := by
    have := sum_abs_map_le l id
    simpa using this
  have ln : l.length = x.length := by rw [hl, List.length_map]
  have tot : |A.sum l| ≤ (1 + u) ^ (x.length - 1) * ((1 + u) ^ 3 * ((1 + G) * rss x) ^ 2) := by
    have a := abs_sub_abs_le_abs_sub (A.sum l) l.sum
    rw [ln] at sm
    have b := mul_le_mul_of_nonneg_left la (by positivity : 0 ≤ (1 + u) ^ (x.length - 1))
    linarith
  have x1 : x.length = x.length - 1 + 1 := by have := List.length_pos_iff.mpr hx; omega
  have pw : (1 + u) * ((1 + u) ^ (x.length - 1) * ((1 + u) ^ 3 * ((1 + G) * rss x) ^ 2)) = (1 + u) ^ (x.length + 3) * ((1 + G) * rss x) ^ 2 := by
    have e : (1 + u) ^ (x.length + 3) = (1 + u) * ((1 + u) ^ (x.length - 1) * (1 + u) ^ 3) := by
      conv_lhs => rw [x1]
      ring
    rw [e]; ring
  have var : A.fl (A.sum l / x.length) * x.length ≤ (1 + u) ^ (x.length + 3) * ((1 + G) * rss x) ^ 2 := by
    have a := (le_abs_self _).trans (fl_abs_le h (A.sum l / x.length))
    rw [abs_div, abs_of_pos n0] at a
    have b := mul_le_mul_of_nonneg_right a n0.le
    have e : (1 + u) * (|A.sum l| / x.length) * x.length = (1 + u) * |A.sum l| := by field_simp
    rw [e] at b
    rw [← pw]
    exact b.trans (mul_le_mul_of_nonneg_left tot (by linarith))
  have big : (1 + u) ^ (x.length + 3) ≤ ((1 + u) ^ (x.length + 1)) ^ 2 := by
    rw [← pow_mul]
    exact pow_le_pow_right₀ (by linarith) (by have := List.length_pos_iff.mpr hx; omega)
  have root : Real.sqrt (A.fl (A.sum l / x.length)) * Real.sqrt x.length ≤ (1 + u) ^ (x.length + 1) * ((1 + G) * rss x) := by
    rw [← Real.sqrt_mul' _ n0.le]
    refine Real.sqrt_le_iff.mpr ⟨mul_nonneg (by positivity) (mul_nonneg (by linarith) (rss_nonneg x)), ?_⟩
    rw [mul_pow]
    exact var.trans (mul_le_mul_of_nonneg_right big (sq_nonneg _))
  have f0 := fl_ge h (Real.sqrt_nonneg (A.fl (A.sum l / x.length)))
  have f1 := (le_abs_self _).trans (fl_abs_le h (Real.sqrt (A.fl (A.sum l / x.length))))
  rw [abs_of_nonneg (Real.sqrt_nonneg _)] at f1
  have l1 := h.lt_one
  refine ⟨(mul_nonneg (by linarith) (Real.sqrt_nonneg _)).trans f0, ?_⟩
  calc Real.sqrt x.length * stdF A x ≤ Real.sqrt x.length * ((1 + u) * Real.sqrt (A.fl (A.sum l / x.length))) := mul_le_mul_of_nonneg_left f1 s0.le
    _ = (1 + u) * (Real.sqrt (A.fl (A.sum l / x.length)) * Real.sqrt x.length) := by ring
    _ ≤ (1 + u) * ((1 + u) ^ (x.length + 1) * ((1 + G) * rss x)) := mul_le_mul_of_nonneg_left root (by linarith)
    _ = _ := by ring

theorem u53' : (2 : ℝ) ^ (-53 : ℤ) = 1 / 9007199254740992 := by norm_num [zpow_neg]

theorem pow_small {k : ℕ} (hk : k ≤ 4000000) : (1 + 1 / 9007199254740992 : ℝ) ^ k ≤ 1 + k * 3e-16 := by
  have a := one_add_pow_le (u := 1 / 9007199254740992) (by norm_num) (by norm_num) k
  have kk : (k : ℝ) ≤ 4000000 := by exact_mod_cast hk
  have b := gr_le (u := 1 / 9007199254740992) (by norm_num) (by norm_num) (k := k) (by linarith)
  have k0 : (0 : ℝ) ≤ k := by positivity
  linarith

/-- The factor `corr_scale` is not too small. -/
theorem strong_peak (h : FloatLike (1 / 9007199254740992) A) {x y : List ℝ} (hx : x ≠ []) (hy : y.length = x.length) (hn : x.length ≤ 1000000) {v XY : ℝ} (hXY : rss x * rss y ≤ XY)
    (hv : 5e-10 * XY < v) : ¬ (timesF A v (scaleF A "coeff" x y)).lt (.fin (1e-10)) := by
  have hy0 : y ≠ [] := by
    intro h0
    rw [h0] at hy
    exact hx (List.length_eq_zero_iff.1 hy.symm)
  have n0 : (0 : ℝ) < x.length := by exact_mod_cast List.length_pos_iff.mpr hx
  obtain ⟨sx0, sx⟩ := stdF_le h hx
  obtain ⟨sy0, sy⟩ := stdF_le h hy0
  rw [hy] at sy
  have XY0 : 0 ≤ XY := (mul_nonneg (rss_nonneg x) (rss_nonneg y)).trans hXY
  have v0 : 0 < v := lt_of_le_of_lt (by positivity) hv
  have kn : (x.length : ℝ) ≤ 1000000 := by exact_mod_cast hn
  have f : (1 + 1 / 9007199254740992 : ℝ) ^ (x.length + 2) * (1 + (1 + 1 / 9007199254740992) ^ x.length) ≤ 2.001 := by
    have a := pow_small (k := x.length + 2) (by omega)
    have b := pow_small (k := x.length) (by omega)
    push_cast at a
    have a' : (1 + 1 / 9007199254740992 : ℝ) ^ (x.length + 2) ≤ 1.0001 := by linarith
    have b' : 1 + (1 + 1 / 9007199254740992 : ℝ) ^ x.length ≤ 2.0001 := by linarith
    exact (mul_le_mul a' b' (by positivity) (by norm_num)).trans (by norm_num)
  have sx' := sx.trans (mul_le_mul_of_nonneg_right f (rss_nonneg x))
  have sy' := sy.trans (mul_le_mul_of_nonneg_right f (rss_nonneg y))
  have sn : Real.sqrt x.length * Real.sqrt x.length = x.length := Real.mul_self_sqrt n0.le
  have pr : x.length * stdF A x * stdF A y ≤ 4.01 * XY := by
    have m := mul_le_mul sx' sy' (by positivity) (mul_nonneg (by norm_num) (rss_nonneg x))
    have e : x.length * stdF A x * stdF A y = Real.sqrt x.length * stdF A x * (Real.sqrt x.length * stdF A y) := by
      conv_lhs => rw [← sn]
      ring
    rw [e]
    refine m.trans ?_
    have : 2.001 * rss x * (2.001 * rss y) = 2.001 ^ 2 * (rss x * rss y) := by ring
    rw [this]
    linarith
  set D := A.fl (A.fl (x.length * stdF A x) * stdF A y) with hD
  have nn : 0 ≤ x.length * stdF A x := by positivity
  have d1 := fl_abs_le h (x.length * stdF A x)
  rw [abs_of_nonneg nn] at d1
  have d2 := fl_abs_le h (A.fl (x.length * stdF A x) * stdF A y)
  rw [abs_mul, abs_of_nonneg sy0, ← hD] at d2
  have g1 := fl_ge h (by positivity : 0 ≤ x.length * stdF A x)
  have i0 : 0 ≤ A.fl (x.length * stdF A x) := (mul_nonneg (by norm_num) nn).trans g1
  have g2 := fl_ge h (mul_nonneg i0 sy0)
  rw [← hD] at g2
  have D0 : 0 ≤ D := (mul_nonneg (by norm_num) (mul_nonneg i0 sy0)).trans g2
  have DD : D ≤ 4.1 * XY := by
    have m := mul_le_mul_of_nonneg_right d1 sy0
    have m2 : |D| ≤ (1 + 1 / 9007199254740992) * ((1 + 1 / 9007199254740992) * (x.length * stdF A x) * stdF A y) := d2.trans (mul_le_mul_of_nonneg_left m (by norm_num))
    have := le_abs_self D
    linarith
  unfold scaleF
  simp only [if_true, ← hD]
  by_cases hz : D = 0
  · rw [hz]
    have e : XR.div 1 0 = .pinf := by simp [XR.div]
    rw [e]
    have e2 : XR.div v 0 = .pinf := by simp [XR.div, v0, v0.ne']
    simp only [timesF, e2]
    simp [XR.lt]
  · have Dp : 0 < D := lt_of_le_of_ne D0 (Ne.symm hz)
    have e : XR.div 1 D = .fin (1 / D) := by simp [XR.div, hz]
    rw [e]
    simp only [timesF, XR.lt, not_lt]
    have k1 := fl_ge h (by positivity : 0 ≤ 1 / D)
    have k2 := fl_ge h (mul_nonneg v0.le ((mul_nonneg (by norm_num) (by positivity : 0 ≤ 1 / D)).trans k1))
    have k3 := mul_le_mul_of_nonneg_left k1 v0.le
    have vd : 1.2e-10 ≤ v * (1 / D) := by
      rw [mul_one_div, le_div_iff₀ Dp]
      linarith
    have k4 := mul_le_mul_of_nonneg_left k3 (by norm_num : (0 : ℝ) ≤ 1 - 1 / 9007199254740992)
    have e4 : (1 - 1 / 9007199254740992 : ℝ) * (v * ((1 - 1 / 9007199254740992) * (1 / D))) = (1 - 1 / 9007199254740992) ^ 2 * (v * (1 / D)) := by ring
    rw [e4] at k4
    have k5 := mul_le_mul_of_nonneg_left vd (by positivity : (0 : ℝ) ≤ (1 - 1 / 9007199254740992) ^ 2)
    have k6 : (1e-10 : ℝ) ≤ (1 - 1 / 9007199254740992) ^ 2 * 1.2e-10 := by norm_num
    linarith

/-- C268 for float64, at most a million samples, direct sums and the scaling 'coeff': if the correlation of the records without their means is larger at one lag than at every other one
by `2·10⁻⁹` times the product of the sizes of the records with their means, and is at least `10⁻⁸` times it, the delay is exactly minus that lag, in units of time (rounded). -/
theorem C268_float64 (h : FloatLike (2 ^ (-53 : ℤ)) A) (dt : ℝ) {x y : List ℝ} (hx : x ≠ []) (hy : y.length = x.length) (hn : x.length ≤ 1000000) {lag : ℤ} (hl : IsLag x.length lag)
    (hgap : ∀ l, IsLag x.length l → l ≠ lag → xcorrAt (demean x) (demean y) l + 2e-9 * (rss x * rss y) < xcorrAt (demean x) (demean y) lag)
    (hpeak : 1e-8 * (rss x * rss y) < xcorrAt (demean x) (demean y) lag) : (delayF A (directF A) dt "coeff" x y).1 = -A.fl (lag * dt) := by
  rw [u53'] at h
  have XY0 : 0 ≤ rss x * rss y := mul_nonneg (rss_nonneg x) (rss_nonneg y)
  have kn : (x.length : ℝ) ≤ 1000000 := by exact_mod_cast hn
  have η0 : 0 ≤ (1 + 1 / 9007199254740992 : ℝ) ^ x.length - 1 := by
    have := one_le_pow₀ (n := x.length) (by norm_num : (1 : ℝ) ≤ 1 + 1 / 9007199254740992)
    linarith
  obtain ⟨lag', v, h1, h2, hv, h3⟩ := delayF_spec h η0 dt "coeff" hx hy (C268_direct h x.length)
  have hB : (1 + ((1 + 1 / 9007199254740992 : ℝ) ^ x.length - 1)) * (1 + 1 / 9007199254740992) ^ (2 * x.length + 2) - 1 ≤ 1e-9 := by
    have e : (1 + ((1 + 1 / 9007199254740992 : ℝ) ^ x.length - 1)) * (1 + 1 / 9007199254740992) ^ (2 * x.length + 2) = (1 + 1 / 9007199254740992) ^ (3 * x.length + 2) := by
      rw [add_sub_cancel, ← pow_add]
      congr 1
      ring
    rw [e]
    have a := pow_small (k := 3 * x.length + 2) (by omega)
    push_cast at a
    linarith
  have hcx : ∀ z : List ℝ, conditioned "coeff" z = demean z := fun z => if_pos rfl
  rw [hcx, hcx] at h2 hv
  have hB2 := mul_le_mul_of_nonneg_right hB XY0
  have same : lag' = lag := by
    by_contra hne
    have a := hgap lag' h1 hne
    have b := h2 lag hl
    linarith
  subst same
  have vb : (1e-8 - 1e-9) * (rss x * rss y) < v := by
    have := (abs_le.mp hv).1
    linarith
  have cx : ∀ {z : List ℝ}, z ≠ [] → z.length = x.length → rss (condF A "coeff" z) ≤ 1.001 * rss z := by
    intro z hz hzl
    obtain ⟨d, dl, dz, dr⟩ := condF_disturbed h "coeff" hz
    have a := rss_add (x := conditioned "coeff" z) (d := d) (by rw [conditioned_length, dl])
    rw [← dz] at a
    have b : rss (conditioned "coeff" z) ≤ rss z := Real.sqrt_le_sqrt (energy_conditioned "coeff" z)
    rw [hzl] at dr
    have c := pow_small (k := x.length + 1) (by omega)
    push_cast at c
    have c' : (1 + 1 / 9007199254740992 : ℝ) ^ (x.length + 1) - 1 ≤ 0.001 := by linarith
    have d' := mul_le_mul_of_nonneg_right c' (rss_nonneg z)
    linarith
  have cl : ∀ z : List ℝ, (condF A "coeff" z).length = z.length := fun z => by simp [condF]
  have hy0 : y ≠ [] := by
    intro h0
    rw [h0] at hy
    exact hx (List.length_eq_zero_iff.1 hy.symm)
  have XY : rss (condF A "coeff" x) * rss (condF A "coeff" y) ≤ 1.01 * (rss x * rss y) := by
    refine (mul_le_mul (cx hx rfl) (cx hy0 hy) (rss_nonneg _) (mul_nonneg (by norm_num) (rss_nonneg _))).trans ?_
    have : 1.001 * rss x * (1.001 * rss y) = 1.001 ^ 2 * (rss x * rss y) := by ring
    rw [this]
    linarith
  have sp := strong_peak h (x := condF A "coeff" x) (y := condF A "coeff" y) (by rw [← List.length_pos_iff, cl]; exact List.length_pos_iff.mpr hx) (by rw [cl, cl, hy])
    (by rw [cl]; exact hn) XY (v := v) (by linarith)
  rw [h3]
  simp only [sp, if_false]

/-- A pulse that arrives one sample later, with numbers rounded to 53 digits. -/
example : (delayF ⟨round53, sum53⟩ (directF ⟨round53, sum53⟩) 1 "coeff" [0, 3, 0] [0, 0, 3]).1 = 1 := by
  have r1 : rss [0, 3, 0] = 3 := by
    unfold rss
    rw [Real.sqrt_eq_iff_mul_self_eq (by norm_num) (by norm_num)]; norm_num
  have r2 : rss [0, 0, 3] = 3 := by
    unfold rss
    rw [Real.sqrt_eq_iff_mul_self_eq (by norm_num) (by norm_num)]; norm_num
  have d1 : demean [0, 3, 0] = [-1, 2, -1] := by norm_num [demean]
  have d2 : demean [0, 0, 3] = [-1, -1, 2] := by norm_num [demean]
  have c : xcorrAt [-1, 2, -1] [-1, -1, 2] (-1) = 5 := by
    norm_num [xcorrAt, Finset.sum_range_succ, ext]
  have := C268_float64 (float53) 1 (x := [0, 3, 0]) (y := [0, 0, 3]) (by simp) rfl (by simp) (lag := -1) ⟨by norm_num, by norm_num⟩ (by
    intro l hl hne
    rw [d1, d2, r1, r2, c]
    have a := hl.1; have b := hl.2
    simp only [List.length_cons, List.length_nil] at a b
    push_cast at a b
    have : l = -2 ∨ l = 0 ∨ l = 1 ∨ l = 2 := by omega
    have t : Int.toNat 2 = 2 := rfl
    rcases this with rfl | rfl | rfl | rfl <;> norm_num [xcorrAt, Finset.sum_range_succ, ext, t]) (by rw [d1, d2, r1, r2, c]; norm_num)
  rw [this]
  have e : ((-1 : ℤ) : ℝ) * 1 = ((-1 : ℤ) : ℝ) := by norm_num
  have k := keeps53.int (-1) (by norm_num)
  simp only
  rw [e, k]
  norm_num

end SST.Round
