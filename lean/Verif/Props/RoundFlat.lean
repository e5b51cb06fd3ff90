import Verif.Model.RoundFlat
import Verif.Proofs.RoundErr
import Verif.Props.RoundIndex
import Mathlib.Analysis.Real.Pi.Bounds

/-!
# C269: local coordinates with rounding
-/

namespace SST.Round
open SST SST.Spatial

variable {u : ℝ} {A : Arith}

/-- `v` is `x` up to `a`. -/
def Abs (a x v : ℝ) : Prop := |v - x| ≤ a

theorem Abs.nonneg {a x v : ℝ} (h : Abs a x v) : 0 ≤ a := (abs_nonneg _).trans h

theorem Abs.size {a x v S : ℝ} (h : Abs a x v) (hx : |x| ≤ S) : |v| ≤ S + a := by
  have := abs_sub_abs_le_abs_sub v x
  unfold Abs at h
  linarith

theorem Abs.rnd (hr : RoundsTo u A.fl) (hu : u ≤ 1.2e-16) {a x v S b : ℝ} (h : Abs a x v) (hx : |x| ≤ S) (hb : a + 1.2e-16 * (S + a) ≤ b) : Abs b x (A.fl v) := by
  have h0 := u_nonneg hr
  have r := hr v
  have s := h.size hx
  have := abs_sub_le (A.fl v) v x
  have := mul_le_mul hu s (abs_nonneg _) (by norm_num)
  unfold Abs at *
  linarith

theorem Abs.mul {a b x y v w X Y c : ℝ} (h : Abs a x v) (h' : Abs b y w) (hx : |x| ≤ X) (hy : |y| ≤ Y) (hc : a * Y + X * b + a * b ≤ c) : Abs c (x * y) (v * w) := by
  have e : v * w - x * y = (v - x) * y + x * (w - y) + (v - x) * (w - y) := by ring
  have X0 := (abs_nonneg _).trans hx
  have a0 := h.nonneg
  unfold Abs at *
  rw [e]
  refine (abs_add_three _ _ _).trans ?_
  rw [abs_mul, abs_mul, abs_mul]
  have p := mul_le_mul h hy (abs_nonneg _) a0
  have q := mul_le_mul hx h' (abs_nonneg _) X0
  have r := mul_le_mul h h' (abs_nonneg _) a0
  linarith

theorem Abs.sub {a b x y v w c : ℝ} (h : Abs a x v) (h' : Abs b y w) (hc : a + b ≤ c) : Abs c (x - y) (v - w) := by
  have e : v - w - (x - y) = (v - x) - (w - y) := by ring
  unfold Abs at *
  rw [e]
  have := abs_sub (v - x) (w - y)
  linarith

theorem Abs.exact (x : ℝ) : Abs 0 x x := by simp [Abs]

theorem Abs.div {a b x y v w Q m c : ℝ} (h : Abs a x v) (h' : Abs b y w) (hQ : |x / y| ≤ Q) (hm : 0 < m) (hy : m ≤ y) (hw : m ≤ w) (hc : a + Q * b ≤ c * m) : Abs c (x / y) (v / w) := by
  have y0 : 0 < y := hm.trans_le hy
  have w0 : 0 < w := hm.trans_le hw
  have e : v / w - x / y = ((v - x) - x / y * (w - y)) / w := by field_simp; ring
  have c0 : 0 ≤ c := by
    by_contra hn
    have := h.nonneg
    have := mul_nonneg ((abs_nonneg _).trans hQ) h'.nonneg
    nlinarith
  unfold Abs at *
  rw [e, abs_div, abs_of_pos w0, div_le_iff₀ w0]
  have t := abs_sub (v - x) (x / y * (w - y))
  rw [abs_mul] at t
  have q := mul_le_mul hQ h' (abs_nonneg _) ((abs_nonneg _).trans hQ)
  have := mul_le_mul_of_nonneg_left hw c0
  linarith

theorem Abs.sqrt {a x v m c : ℝ} (h : Abs a x v) (hm : 0 < m) (hx : m ^ 2 ≤ x) (hv : m ^ 2 ≤ v) (hc : a ≤ c * (2 * m)) : Abs c (Real.sqrt x) (Real.sqrt v) := by
  have x0 : 0 ≤ x := (sq_nonneg m).trans hx
  have v0 : 0 ≤ v := (sq_nonneg m).trans hv
  have sx : m ≤ Real.sqrt x := Real.le_sqrt_of_sq_le hx
  have sv : m ≤ Real.sqrt v := Real.le_sqrt_of_sq_le hv
  have e : (Real.sqrt v - Real.sqrt x) * (Real.sqrt v + Real.sqrt x) = v - x := by
    have := Real.mul_self_sqrt x0
    have := Real.mul_self_sqrt v0
    linarith
  have p : |Real.sqrt v - Real.sqrt x| * (Real.sqrt v + Real.sqrt x) = |v - x| := by
    rw [← e, abs_mul, abs_of_pos (by linarith : 0 < Real.sqrt v + Real.sqrt x)]
  unfold Abs at *
  have q : |Real.sqrt v - Real.sqrt x| * (2 * m) ≤ |v - x| := by
    rw [← p]
    exact mul_le_mul_of_nonneg_left (by linarith) (abs_nonneg _)
  exact le_of_mul_le_mul_right (q.trans (h.trans hc)) (by linarith)

theorem Abs.mono {a b x v : ℝ} (h : Abs a x v) (hab : a ≤ b) : Abs b x v := le_trans (a := |v - x|) h hab

/-- Degrees to radians. -/
theorem deg2radF_abs (h : FloatLike u A) (hu : u ≤ 1.2e-16) {x B : ℝ} (hx : |deg2rad x| ≤ B) : Abs (7.3e-16 * B) (deg2rad x) (deg2radF A x) := by
  have h0 := u_nonneg h.rounds
  have h1 := h.lt_one
  obtain ⟨α, ha, ea⟩ := fl_fac h Real.pi
  obtain ⟨β, hb, eb⟩ := fl_fac h (A.fl Real.pi / 180)
  obtain ⟨γ, hc, ec⟩ := fl_fac h (x * A.fl (A.fl Real.pi / 180))
  have e : deg2radF A x = (α * β * γ) * deg2rad x := by
    unfold deg2radF deg2rad
    rw [ec, eb, ea]; ring
  have f := (((ha.mul h0 h1 hb).mul h0 h1 hc).err h0 h1 (x := deg2rad x)).2
  rw [← e] at f
  have g := gr_le h0 h1 (k := 3) (by norm_num; linarith)
  norm_num at g
  unfold Abs
  refine f.trans ?_
  have g' : gr u (1 + 1 + 1) ≤ 7.3e-16 := by
    have : gr u (1 + 1 + 1) = gr u 3 := by norm_num
    rw [this]; linarith
  exact mul_le_mul g' hx (abs_nonneg _) (by norm_num)

theorem ecc2_abs (h : FloatLike u A) (hu : u ≤ 1.2e-16) : Abs 1e-17 (2 * flattening - flattening ^ 2) (ecc2F A) := by
  have l : Abs 4e-14 298.257223563 (A.fl 298.257223563) := (Abs.exact _).rnd h.rounds hu (S := 298.257223563) (by rw [abs_of_pos] <;> norm_num) (by norm_num)
  have lw : 298 ≤ A.fl 298.257223563 := by
    have := (abs_le.mp l).1
    linarith
  have fb : |flattening| ≤ 0.0034 := by
    unfold flattening; rw [abs_of_pos] <;> norm_num
  have q : Abs 5e-19 flattening (1 / A.fl 298.257223563) := (Abs.exact 1).div l (Q := 0.0034) (m := 298) (by unfold flattening at fb; exact fb) (by norm_num) (by norm_num) lw (by norm_num)
  have f : Abs 1e-18 flattening (flatteningF A) := q.rnd h.rounds hu fb (by norm_num)
  have t : Abs 4e-18 (2 * flattening) (A.fl (2 * flatteningF A)) := by
    have := (Abs.exact 2).mul f (X := 2) (Y := 0.0034) (c := 2e-18) (by norm_num) fb (by norm_num)
    exact this.rnd h.rounds hu (S := 0.0068) (by rw [abs_mul]; norm_num; linarith) (by norm_num)
  have s : Abs 1e-19 (flattening ^ 2) (A.fl (flatteningF A ^ 2)) := by
    have := f.mul f (X := 0.0034) (Y := 0.0034) (c := 1e-20) fb fb (by norm_num)
    rw [← sq, ← sq] at this
    exact this.rnd h.rounds hu (S := 0.0000116) (by rw [abs_pow]; exact (pow_le_pow_left₀ (abs_nonneg _) fb 2).trans (by norm_num)) (by norm_num)
  have d := t.sub s (c := 4.2e-18) (by norm_num)
  refine d.rnd h.rounds hu (S := 0.0067) ?_ (by norm_num)
  unfold flattening; rw [abs_of_pos] <;> norm_num

theorem ecc2_bounds : 0.0066 < 2 * flattening - flattening ^ 2 ∧ 2 * flattening - flattening ^ 2 < 0.0067 := by
  unfold flattening; constructor <;> norm_num

theorem den_bounds (m : ℝ) : 0.9933 ≤ 1 - (2 * flattening - flattening ^ 2) * Real.sin m ^ 2 ∧ 1 - (2 * flattening - flattening ^ 2) * Real.sin m ^ 2 ≤ 1 := by
  obtain ⟨a, b⟩ := ecc2_bounds
  have s0 := sq_nonneg (Real.sin m)
  have s1 := Real.sin_sq_le_one m
  constructor <;> nlinarith

/-- The radii for a sine that is accurate to `2·10⁻¹⁵`. -/
theorem radii_abs (h : FloatLike u A) (hu : u ≤ 1.2e-16) {m s : ℝ} (hs : Abs 2.4e-15 (Real.sin m) s) :
    Abs 3e-9 (primeRadius m) (primeF A s) ∧ Abs 8e-9 (meridRadius m) (meridF A s) ∧ |primeRadius m| ≤ 6.4e6 ∧ |meridRadius m| ≤ 6.4e6 := by
  obtain ⟨e0, e1⟩ := ecc2_bounds
  obtain ⟨q0, q1⟩ := den_bounds m
  have sb := Real.abs_sin_le_one m
  set E := 2 * flattening - flattening ^ 2 with hE
  have s2 : Abs 6e-15 (Real.sin m ^ 2) (A.fl (s ^ 2)) := by
    have := hs.mul hs (c := 5e-15) sb sb (by norm_num)
    rw [← sq, ← sq] at this
    exact this.rnd h.rounds hu (S := 1) (by rw [abs_pow]; exact pow_le_one₀ (abs_nonneg _) sb) (by norm_num)
  have eb : |E| ≤ 0.0067 := by rw [abs_of_pos (by linarith)]; linarith
  have sq1 : |Real.sin m ^ 2| ≤ 1 := by rw [abs_pow]; exact pow_le_one₀ (abs_nonneg _) sb
  have p : Abs 6e-17 (E * Real.sin m ^ 2) (A.fl (ecc2F A * A.fl (s ^ 2))) := by
    have := (ecc2_abs h hu).mul s2 (c := 5.1e-17) eb sq1 (by norm_num)
    refine this.rnd h.rounds hu (S := 0.0067) ?_ (by norm_num)
    rw [abs_mul]
    calc _ ≤ 0.0067 * 1 := mul_le_mul eb sq1 (abs_nonneg _) (by norm_num)
      _ = _ := by norm_num
  have q : Abs 1.9e-16 (1 - E * Real.sin m ^ 2) (denF A s) := by
    have := (Abs.exact 1).sub p (c := 6e-17) (by norm_num)
    exact this.rnd h.rounds hu (S := 1) (by rw [abs_of_pos (by linarith)]; exact q1) (by norm_num)
  have ql : 0.993 ≤ denF A s := by
    have := (abs_le.mp q).1
    linarith
  set D := 1 - E * Real.sin m ^ 2 with hD
  have r0 : 0.996 ≤ Real.sqrt D := Real.le_sqrt_of_sq_le (by norm_num; linarith)
  have r1 : Real.sqrt D ≤ 1 := Real.sqrt_le_one.mpr q1
  have w : Abs 2.3e-16 (Real.sqrt D) (A.fl (Real.sqrt (denF A s))) := by
    have := q.sqrt (m := 0.996) (c := 1e-16) (by norm_num) (by norm_num; linarith) (by norm_num; linarith) (by norm_num)
    exact this.rnd h.rounds hu (S := 1) (by rw [abs_of_nonneg (by linarith)]; exact r1) (by norm_num)
  have wl : 0.995 ≤ A.fl (Real.sqrt (denF A s)) := by
    have := (abs_le.mp w).1
    linarith
  have pr : |rEarth / Real.sqrt D| ≤ 6404000 := by
    unfold rEarth
    rw [abs_of_pos (by positivity), div_le_iff₀ (by linarith)]
    linarith
  have prime : Abs 3e-9 (primeRadius m) (primeF A s) := by
    have := (Abs.exact rEarth).div w (Q := 6404000) (m := 0.995) (c := 2.2e-9) pr (by norm_num) (by linarith) wl (by norm_num)
    have r := this.rnd h.rounds hu (S := 6404000) pr (b := 3e-9) (by norm_num)
    exact r
  have pr' : |primeRadius m| ≤ 6.4e6 := by
    have e : primeRadius m = rEarth / Real.sqrt D := rfl
    have r2 : 0.9966 ≤ Real.sqrt D := Real.le_sqrt_of_sq_le (by norm_num; linarith)
    rw [e]
    unfold rEarth
    rw [abs_of_pos (by positivity), div_le_iff₀ (by linarith)]
    linarith
  have nm : Abs 1.4e-16 (1 - E) (A.fl (1 - ecc2F A)) := by
    have := (Abs.exact 1).sub (ecc2_abs h hu) (c := 1e-17) (by norm_num)
    exact this.rnd h.rounds hu (S := 1) (by rw [abs_of_pos (by linarith)]; linarith) (by norm_num)
  have tb : |(1 - E) / D| ≤ 1.0001 := by
    rw [abs_of_pos (div_pos (by linarith) (by linarith)), div_le_iff₀ (by linarith)]
    have := Real.sin_sq_le_one m
    nlinarith
  have tb1 : |(1 - E) / D| ≤ 1 := by
    rw [abs_of_pos (div_pos (by linarith) (by linarith)), div_le_iff₀ (by linarith)]
    have := Real.sin_sq_le_one m
    nlinarith
  have t : Abs 4.7e-16 ((1 - E) / D) (A.fl (A.fl (1 - ecc2F A) / denF A s)) := by
    have := nm.div q (Q := 1.0001) (m := 0.993) (c := 3.4e-16) tb (by norm_num) (by linarith) ql (by norm_num)
    exact this.rnd h.rounds hu (S := 1) tb1 (by norm_num)
  have mr : |meridRadius m| ≤ 6.4e6 := by
    have e : meridRadius m = primeRadius m * ((1 - E) / D) := rfl
    rw [e, abs_mul]
    calc _ ≤ 6.4e6 * 1 := mul_le_mul pr' tb1 (abs_nonneg _) (by norm_num)
      _ = _ := by norm_num
  refine ⟨prime, ?_, pr', mr⟩
  have := prime.mul t (c := 6.1e-9) pr' tb1 (by norm_num)
  exact this.rnd h.rounds hu mr (by norm_num)

theorem diff_abs (h : FloatLike u A) (hu : u ≤ 1.2e-16) {x r B : ℝ} (hx : |deg2rad x| ≤ B) (hr : |deg2rad r| ≤ B) (hB : B ≤ 3.1416) :
    Abs (1.47e-15 * B + 1.3e-16 * |deg2rad x - deg2rad r|) (deg2rad x - deg2rad r) (A.fl (deg2radF A x - deg2radF A r)) := by
  have B0 := (abs_nonneg _).trans hx
  have a := (deg2radF_abs h hu hx).sub (deg2radF_abs h hu hr) (c := 1.46e-15 * B) (by linarith)
  exact a.rnd h.rounds hu le_rfl (by have := abs_nonneg (deg2rad x - deg2rad r); linarith)

theorem deg_abs {x b : ℝ} (hx : |x| ≤ b) : |deg2rad x| ≤ b * 0.0174533 := by
  have := Real.pi_lt_d6
  have := Real.pi_pos
  unfold deg2rad
  rw [abs_mul, abs_of_pos (by positivity : 0 < Real.pi / 180)]
  exact mul_le_mul hx (by norm_num at *; linarith) (by positivity) ((abs_nonneg _).trans hx)

theorem deg_diff (x r : ℝ) : |deg2rad x - deg2rad r| ≤ |x - r| * 0.0174533 := by
  have := deg_abs (x := x - r) le_rfl
  unfold deg2rad at this ⊢
  rwa [← sub_mul]

theorem sin_lip (a b : ℝ) : |Real.sin a - Real.sin b| ≤ |a - b| := by
  rw [Real.sin_sub_sin, abs_mul, abs_mul]
  have h1 := Real.abs_sin_le_abs (x := (a - b) / 2)
  have h2 := Real.abs_cos_le_one ((a + b) / 2)
  rw [abs_div] at h1
  norm_num at h1 ⊢
  have := mul_le_mul h1 h2 (abs_nonneg _) (by positivity)
  linarith

theorem cos_lip (a b : ℝ) : |Real.cos a - Real.cos b| ≤ |a - b| := by
  have h := sin_lip (Real.pi / 2 - a) (Real.pi / 2 - b)
  rw [Real.sin_pi_div_two_sub, Real.sin_pi_div_two_sub] at h
  refine h.trans (le_of_eq ?_)
  rw [← abs_neg]; congr 1; ring

/-- C269 for float64 and sine and cosine accurate to `10⁻¹⁵`: each local coordinate of a place differs from that in exact arithmetic by at most `2·10⁻⁸` m (north) and `4·10⁻⁸` m (east)
and `10⁻⁹` m for each degree of difference to the reference. -/
theorem C269_flat (h : FloatLike (2 ^ (-53 : ℤ)) A) {sn cs : ℝ → ℝ} (hsn : ∀ x, |sn x - Real.sin x| ≤ 1e-15) (hcs : ∀ x, |cs x - Real.cos x| ≤ 1e-15)
    (tm : ℝ → ℝ → ℝ → ℝ → ℝ × ℝ) {lat lon latref lonref E N : ℝ} (h1 : |lat| ≤ 90) (h2 : |latref| ≤ 90) (h3 : |lon| ≤ 180) (h4 : |lonref| ≤ 180)
    (he : lla2flat tm lat lon latref lonref "matlab" = .ok (E, N)) :
    |(lla2flatF A sn cs lat lon latref lonref).1 - E| ≤ 4e-8 + 1e-9 * |lon - lonref| ∧ |(lla2flatF A sn cs lat lon latref lonref).2 - N| ≤ 2e-8 + 1e-9 * |lat - latref| := by
  have hu : (2 : ℝ) ^ (-53 : ℤ) ≤ 1.2e-16 := by norm_num [zpow_neg]
  simp only [lla2flat, if_true, Except.ok.injEq, Prod.mk.injEq] at he
  obtain ⟨rfl, rfl⟩ := he
  have bl : ∀ {x : ℝ}, |x| ≤ 90 → |deg2rad x| ≤ 1.571 := fun hx => (deg_abs hx).trans (by norm_num)
  have bo : ∀ {x : ℝ}, |x| ≤ 180 → |deg2rad x| ≤ 3.1416 := fun hx => (deg_abs hx).trans (by norm_num)
  have mu := deg2radF_abs h hu (bl h2)
  have lip : ∀ {f : ℝ → ℝ}, (∀ a b : ℝ, |f a - f b| ≤ |a - b|) → ∀ {g : ℝ → ℝ}, (∀ x, |g x - f x| ≤ 1e-15) → Abs 2.4e-15 (f (deg2rad latref)) (g (deg2radF A latref)) := by
    intro f hf g hg
    have a := hf (deg2radF A latref) (deg2rad latref)
    have b := hg (deg2radF A latref)
    have c := abs_sub_le (g (deg2radF A latref)) (f (deg2radF A latref)) (f (deg2rad latref))
    unfold Abs at mu ⊢
    linarith
  have s := lip (fun a b => sin_lip a b) hsn
  have c := lip (fun a b => cos_lip a b) hcs
  obtain ⟨pr, mr, pb, mb⟩ := radii_abs h hu s
  have cb := Real.abs_cos_le_one (deg2rad latref)
  have dN := diff_abs h hu (bl h1) (bl h2) (by norm_num)
  have dE := diff_abs h hu (bo h3) (bo h4) le_rfl
  have gN := deg_diff lat latref
  have gE := deg_diff lon lonref
  set X := deg2rad lon - deg2rad lonref with hX
  set Y := deg2rad lat - deg2rad latref with hY
  have X0 := abs_nonneg X
  have Y0 := abs_nonneg Y
  have Xb : |X| ≤ 6.2832 := (abs_sub _ _).trans (by have := bo h3; have := bo h4; linarith)
  have Yb : |Y| ≤ 3.142 := (abs_sub _ _).trans (by have := bl h1; have := bl h2; linarith)
  constructor
  · have k : Abs 2e-8 (primeRadius (deg2rad latref) * Real.cos (deg2rad latref)) (A.fl (primeF A (sn (deg2radF A latref)) * cs (deg2radF A latref))) := by
      have := pr.mul c (c := 1.85e-8) pb cb (by norm_num)
      refine this.rnd h.rounds hu (S := 6.4e6) ?_ (by norm_num)
      rw [abs_mul]
      calc _ ≤ 6.4e6 * 1 := mul_le_mul pb cb (abs_nonneg _) (by norm_num)
        _ = _ := by norm_num
    have kb : |primeRadius (deg2rad latref) * Real.cos (deg2rad latref)| ≤ 6.4e6 := by
      rw [abs_mul]
      calc _ ≤ 6.4e6 * 1 := mul_le_mul pb cb (abs_nonneg _) (by norm_num)
        _ = _ := by norm_num
    have m := k.mul dE (Y := |X|) (c := 3e-8 + 2.2e-8 * |X|) kb le_rfl (by linarith)
    have r := m.rnd h.rounds hu (S := 6.4e6 * |X|) (b := 4e-8 + 3e-8 * |X|) (by rw [abs_mul]; exact mul_le_mul_of_nonneg_right kb X0) (by linarith)
    refine le_trans (a := |_ - _|) r ?_
    linarith
  · have m := mr.mul dN (Y := |Y|) (c := 1.6e-8 + 1e-8 * |Y|) mb le_rfl (by linarith)
    have r := m.rnd h.rounds hu (S := 6.4e6 * |Y|) (b := 2e-8 + 2e-8 * |Y|) (by rw [abs_mul]; exact mul_le_mul_of_nonneg_right mb Y0) (by linarith)
    refine le_trans (a := |_ - _|) r ?_
    linarith

/-- C269: the reference itself is exactly the origin, whatever the rounding. -/
theorem C269_origin (h : FloatLike u A) (sn cs : ℝ → ℝ) (latref lonref : ℝ) : lla2flatF A sn cs latref lonref latref lonref = (0, 0) := by
  have z : A.fl 0 = 0 := by
    have := h.rounds 0
    simpa using this
  unfold lla2flatF
  simp only [sub_self, z, mul_zero]

/-- A plant in central Europe with numbers rounded to 53 digits and exact angle functions. -/
example : ∃ E N, lla2flat (fun _ _ _ _ => (0, 0)) 50.01 8.02 50 8 "matlab" = .ok (E, N) ∧
    |(lla2flatF ⟨round53, sum53⟩ Real.sin Real.cos 50.01 8.02 50 8).1 - E| ≤ 4e-8 + 1e-9 * |8.02 - 8| := by
  refine ⟨_, _, by unfold lla2flat; rw [if_pos rfl], ?_⟩
  exact (C269_flat float53 (fun x => by simp; norm_num) (fun x => by simp; norm_num) (fun _ _ _ _ => (0, 0)) (by norm_num [abs_of_pos]) (by norm_num) (by norm_num [abs_of_pos]) (by norm_num)
    (by unfold lla2flat; rw [if_pos rfl])).1

end SST.Round
