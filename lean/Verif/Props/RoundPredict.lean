import Verif.Model.RoundPredict
import Verif.Spec.RoundPredict
import Verif.Proofs.RoundErr
import Verif.Props.RoundIndex

/-!
# C267: the predicted position with rounding
-/

namespace SST.Round
open SST SST.Spatial SST.Spec

variable {u : ℝ} {A : Arith}

theorem vlen_pos {V : Vec} (h : V ≠ 0) : 0 < vlen V := by
  unfold vlen
  refine Real.sqrt_pos.mpr ?_
  by_contra hc
  have a : V.1 ^ 2 = 0 := le_antisymm (by nlinarith [sq_nonneg V.1, sq_nonneg V.2]) (sq_nonneg _)
  have b : V.2 ^ 2 = 0 := le_antisymm (by nlinarith [sq_nonneg V.1, sq_nonneg V.2]) (sq_nonneg _)
  exact h (Prod.ext (pow_eq_zero_iff two_ne_zero |>.mp a) (pow_eq_zero_iff two_ne_zero |>.mp b))

theorem vlen_sq (V : Vec) : vlen V ^ 2 = V.1 ^ 2 + V.2 ^ 2 := Real.sq_sqrt (by positivity)

/-- The error of one row. -/
theorem errorDist_err (h : FloatLike u A) {V ref x : Vec} {d R D : ℝ} (hV : V ≠ 0) (hR : pdist x ref ≤ R) (hD : |d| * vlen V ≤ D) :
    ∃ v, errorDistF A V ref x d = some v ∧ Err u 8 (D + R) (-d * vlen V + along x ref V) v := by
  have h0 := u_nonneg h.rounds
  have h1 := h.lt_one
  obtain ⟨α, β, a1, a2, b1, b2, m0, e⟩ := unit_factor h hV
  have fa : Fac u 4 α := ⟨a1, a2⟩
  have fb : Fac u 4 β := ⟨b1, b2⟩
  have hm : magnitude V = vlen V := rfl
  rw [hm] at m0 e
  obtain ⟨θ, ht, et⟩ := fl_fac h (x.1 - ref.1)
  obtain ⟨η, hη, eη⟩ := fl_fac h (x.2 - ref.2)
  have key : ∀ {θ α y z : ℝ}, Fac u 1 θ → Fac u 4 α → Err u 6 |y * z| (-(y * z)) (A.fl (-(θ * y) * (α * z))) := by
    intro θ α y z ht ha
    have := ((ht.mul h0 h1 ha).err h0 h1 (x := y * z)).neg.rnd h.rounds h1
    have q : -(θ * α * (y * z)) = -(θ * y) * (α * z) := by ring
    rwa [q] at this
  have p := ((key ht fa (y := x.1 - ref.1) (z := V.1 / vlen V)).add (key hη fb (y := x.2 - ref.2) (z := V.2 / vlen V))).rnd h.rounds h1
  have sz : |(x.1 - ref.1) * (V.1 / vlen V)| + |(x.2 - ref.2) * (V.2 / vlen V)| ≤ R := by
    have c := cross_le (x := V.2 / vlen V) (y := V.1 / vlen V) (c := x.1 - ref.1) (d := x.2 - ref.2) (l := 1) (L := pdist x ref) zero_le_one (Real.sqrt_nonneg _)
      (by have := vlen_sq V; field_simp; linarith) (by unfold pdist; rw [Real.sq_sqrt (by positivity)])
    rw [one_mul, mul_comm (V.2 / vlen V)] at c
    exact c.trans hR
  have q := (((Err.exact (u := u) (le_refl |-d|)).mul h0 h1 ((C260_magnitude h V).err h0 h1 (by rw [hm]; exact m0.le))).rnd h.rounds h1).mono h0 h1 (l := 7) (T := D) (by norm_num)
    (by rw [abs_neg]; exact hD)
  have r := (q.sub (p.mono h0 h1 (l := 7) le_rfl sz)).rnd h.rounds h1
  have ex : -d * vlen V + along x ref V = -d * magnitude V - (-((x.1 - ref.1) * (V.1 / vlen V)) + -((x.2 - ref.2) * (V.2 / vlen V))) := by
    rw [hm]; unfold along; ring
  rw [ex]
  refine ⟨_, ?_, r⟩
  unfold errorDistF projectF vectorF
  simp only [e, et, eη, Option.map_some, dotF]

/-- The mean of the errors is nearly the distance of the true position along the direction of motion. -/
theorem meanError_near (h : FloatLike u A) {V ref p : Vec} {R D τ : ℝ} {n : ℕ} {rows : List (Vec × Option ℝ)} (hV : V ≠ 0) (hw : WaveRows ref p V R D τ n rows) :
    ∃ e, meanErrorF A V ref rows = some e ∧ |e - along p ref V| ≤ gr u (n + 8) * (D + R) + τ * vlen V := by
  classical
  have h0 := u_nonneg h.rounds
  have h1 := h.lt_one
  have m0 := vlen_pos hV
  set L : List (Vec × ℝ) := rows.filterMap fun r => r.2.map fun d => (r.1, d) with hL
  have mem : ∀ x ∈ L, ∃ r ∈ rows, r.1 = x.1 ∧ r.2 = some x.2 := by
    intro x hx
    rw [hL, List.mem_filterMap] at hx
    obtain ⟨r, hr, e⟩ := hx
    rcases hr2 : r.2 with _ | d
    · rw [hr2] at e; simp at e
    · rw [hr2, Option.map_some, Option.some.injEq] at e
      subst e
      exact ⟨r, hr, rfl, hr2⟩
  have Lne : L ≠ [] := by
    obtain ⟨r, hr, hn⟩ := hw.present
    obtain ⟨d, hd⟩ := Option.ne_none_iff_exists'.mp hn
    refine List.ne_nil_of_mem (a := (r.1, d)) ?_
    rw [hL, List.mem_filterMap]
    exact ⟨r, hr, by rw [hd]; rfl⟩
  have len : L.length ≤ n := (List.length_filterMap_le _ _).trans hw.count
  have ev : ∀ x ∈ L, ∃ v, errorDistF A V ref x.1 x.2 = some v ∧ Err u 8 (D + R) (-x.2 * vlen V + along x.1 ref V) v := by
    intro x hx
    obtain ⟨r, hr, e1, e2⟩ := mem x hx
    exact errorDist_err h hV (e1 ▸ hw.near r hr) (hw.move r hr _ e2)
  set g : Vec × ℝ → ℝ := fun x => (errorDistF A V ref x.1 x.2).getD 0 with hg
  have rw1 : (rows.filterMap fun r => r.2.bind fun (d : ℝ) => errorDistF A V ref r.1 d) = L.map g := by
    have e1 : (rows.filterMap fun r => r.2.bind fun (d : ℝ) => errorDistF A V ref r.1 d) = L.filterMap fun x => errorDistF A V ref x.1 x.2 := by
      rw [hL, List.filterMap_filterMap]
      congr 1
      funext r
      cases r.2 <;> rfl
    rw [e1]
    clear_value L
    clear e1 len Lne mem hL
    induction L with
    | nil => rfl
    | cons x l ih =>
      obtain ⟨v, hv, -⟩ := ev x (by simp)
      have hgx : g x = v := by rw [hg]; simp only [hv, Option.getD_some]
      rw [List.filterMap_cons, hv, List.map_cons, hgx, ih fun y hy => ev y (by simp [hy])]
  have er : ∀ x ∈ L, Err u 8 (D + R) (-x.2 * vlen V + along x.1 ref V) (g x) := by
    intro x hx
    obtain ⟨v, hv, er⟩ := ev x hx
    have hgx : g x = v := by rw [hg]; simp only [hv, Option.getD_some]
    rw [hgx]; exact er
  have sm := Err.sum h.rounds h1 (h.sums (L.map g) (by simpa using Lne)) er len
  have n0 : (0 : ℝ) < L.length := by exact_mod_cast List.length_pos_iff.mpr Lne
  set s := (L.map fun x => -x.2 * vlen V + along x.1 ref V).sum with hs
  have dv : Err u (n + 7) (D + R) (s / L.length) (A.sum (L.map g) / L.length) := by
    refine ⟨?_, ?_⟩
    · rw [abs_div, abs_of_pos n0, div_le_iff₀ n0, mul_comm]; exact sm.1
    · rw [← sub_div, abs_div, abs_of_pos n0, div_le_iff₀ n0]
      have := sm.2
      have e8 : 8 + n - 1 = n + 7 := by omega
      rw [e8] at this
      linarith
  have fin := (dv.rnd h.rounds h1).2
  refine ⟨A.fl (A.sum (L.map g) / L.length), ?_, ?_⟩
  · unfold meanErrorF meanOF
    rw [rw1, if_neg (by simpa using Lne), List.length_map]
  · have close : |s / L.length - along p ref V| ≤ τ * vlen V := by
      have e : s / L.length - along p ref V = (L.map fun x => (-x.2 * vlen V + along x.1 ref V) - along p ref V).sum / L.length := by
        rw [div_sub' n0.ne', hs]
        congr 1
        clear_value L
        clear fin dv hs n0 sm er rw1 ev len Lne mem hL
        induction L with
        | nil => simp
        | cons x l ih =>
          simp only [List.map_cons, List.sum_cons, List.length_cons, Nat.cast_add, Nat.cast_one]
          rw [← ih]; ring
      rw [e, abs_div, abs_of_pos n0, div_le_iff₀ n0, mul_comm]
      refine (sum_abs_map_le L _).trans ?_
      have := List.sum_le_card_nsmul (L.map fun x => |(-x.2 * vlen V + along x.1 ref V) - along p ref V|) (τ * vlen V) (by
        intro y hy
        obtain ⟨x, hx, rfl⟩ := List.mem_map.mp hy
        obtain ⟨r, hr, e1, e2⟩ := mem x hx
        have w := hw.wave r hr _ e2
        rw [e1] at w
        have : (-x.2 * vlen V + along x.1 ref V) - along p ref V = -((x.2 - planeDelay x.1 p V) * vlen V) := by
          unfold along planeDelay
          rw [← vlen_sq]
          field_simp
          ring
        rw [this, abs_neg, abs_mul, abs_of_pos m0]
        exact mul_le_mul_of_nonneg_right w m0.le)
      simpa using this
    have := abs_sub_le (A.fl (A.sum (L.map g) / L.length)) (s / L.length) (along p ref V)
    linarith

/-- One of the two conditions for the intersection, with a direction that is not exact. -/
theorem residual {l c Δ e a1 a2 w1 w2 c1 c2 : ℝ} (hl : 0 ≤ l) (hu : a1 ^ 2 + a2 ^ 2 = 1) (hw : |w1 - a1| + |w2 - a2| ≤ l) (hc0 : 0 ≤ c) (hc : c ^ 2 = c1 ^ 2 + c2 ^ 2)
    (he : |e - (c1 * a1 + c2 * a2)| ≤ Δ) :
    w1 ^ 2 + w2 ^ 2 ≤ (1 + l) ^ 2 ∧ |e * (w1 ^ 2 + w2 ^ 2) - (c1 * w1 + c2 * w2)| ≤ Δ * (1 + l) ^ 2 + c * (3 * l + l ^ 2) := by
  have d1 := abs_nonneg (w1 - a1)
  have d2 := abs_nonneg (w2 - a2)
  have sq1 : (w1 - a1) ^ 2 + (w2 - a2) ^ 2 ≤ l ^ 2 := by
    rw [← sq_abs (w1 - a1), ← sq_abs (w2 - a2)]
    nlinarith
  have a1b : |a1| ≤ 1 := abs_le_one_iff_mul_self_le_one.mpr (by nlinarith [sq_nonneg a2])
  have a2b : |a2| ≤ 1 := abs_le_one_iff_mul_self_le_one.mpr (by nlinarith [sq_nonneg a1])
  have dt : |a1 * (w1 - a1) + a2 * (w2 - a2)| ≤ l := by
    refine (abs_add_le _ _).trans ?_
    rw [abs_mul, abs_mul]
    nlinarith
  have nb : |w1 ^ 2 + w2 ^ 2 - 1| ≤ 2 * l + l ^ 2 := by
    have : w1 ^ 2 + w2 ^ 2 - 1 = 2 * (a1 * (w1 - a1) + a2 * (w2 - a2)) + ((w1 - a1) ^ 2 + (w2 - a2) ^ 2) := by
      linear_combination hu
    rw [this]
    refine (abs_add_le _ _).trans ?_
    rw [abs_mul, abs_of_pos (by norm_num : (0 : ℝ) < 2), abs_of_nonneg (by positivity : 0 ≤ (w1 - a1) ^ 2 + (w2 - a2) ^ 2)]
    linarith
  have n1 : w1 ^ 2 + w2 ^ 2 ≤ (1 + l) ^ 2 := by
    have := (abs_le.mp nb).2
    nlinarith
  refine ⟨n1, ?_⟩
  have c1b : |c1| ≤ c := abs_le_of_sq_le_sq (by nlinarith [sq_nonneg c2]) hc0
  have c2b : |c2| ≤ c := abs_le_of_sq_le_sq (by nlinarith [sq_nonneg c1]) hc0
  have pr : |c1 * a1 + c2 * a2| ≤ c := by
    refine abs_le_of_sq_le_sq ?_ hc0
    rw [hc]
    nlinarith [sq_nonneg (c1 * a2 - c2 * a1)]
  have x1 : |(e - (c1 * a1 + c2 * a2)) * (w1 ^ 2 + w2 ^ 2)| ≤ Δ * (1 + l) ^ 2 := by
    rw [abs_mul, abs_of_nonneg (by positivity : 0 ≤ w1 ^ 2 + w2 ^ 2)]
    exact mul_le_mul he n1 (by positivity) ((abs_nonneg _).trans he)
  have x2 : |(c1 * a1 + c2 * a2) * (w1 ^ 2 + w2 ^ 2 - 1)| ≤ c * (2 * l + l ^ 2) := by
    rw [abs_mul]
    exact mul_le_mul pr nb (abs_nonneg _) hc0
  have x3 : |c1 * (w1 - a1) + c2 * (w2 - a2)| ≤ c * l := by
    refine (abs_add_le _ _).trans ?_
    rw [abs_mul, abs_mul]
    calc _ ≤ c * |w1 - a1| + c * |w2 - a2| := add_le_add (mul_le_mul_of_nonneg_right c1b d1) (mul_le_mul_of_nonneg_right c2b d2)
      _ = c * (|w1 - a1| + |w2 - a2|) := by ring
      _ ≤ _ := mul_le_mul_of_nonneg_left hw hc0
  have e2 : e * (w1 ^ 2 + w2 ^ 2) - (c1 * w1 + c2 * w2) = (e - (c1 * a1 + c2 * a2)) * (w1 ^ 2 + w2 ^ 2) + (c1 * a1 + c2 * a2) * (w1 ^ 2 + w2 ^ 2 - 1) + -(c1 * (w1 - a1) + c2 * (w2 - a2)) := by
    ring
  rw [e2]
  refine (abs_add_le _ _).trans ?_
  rw [abs_neg]
  have := abs_add_le ((e - (c1 * a1 + c2 * a2)) * (w1 ^ 2 + w2 ^ 2)) ((c1 * a1 + c2 * a2) * (w1 ^ 2 + w2 ^ 2 - 1))
  linarith

/-- The angle between two directions that are not exact. -/
theorem det_near {l s a1 a2 b1 b2 w1 w2 z1 z2 : ℝ} (hl : 0 ≤ l) (ha : a1 ^ 2 + a2 ^ 2 = 1) (hb : b1 ^ 2 + b2 ^ 2 = 1) (hw : |w1 - a1| + |w2 - a2| ≤ l) (hz : |z1 - b1| + |z2 - b2| ≤ l)
    (hs : s ≤ |a1 * b2 - a2 * b1|) : s - l * (2 + l) ≤ |w1 * z2 - w2 * z1| := by
  have a1b : |a1| ≤ 1 := abs_le_one_iff_mul_self_le_one.mpr (by nlinarith [sq_nonneg a2])
  have a2b : |a2| ≤ 1 := abs_le_one_iff_mul_self_le_one.mpr (by nlinarith [sq_nonneg a1])
  have b1b : |b1| ≤ 1 := abs_le_one_iff_mul_self_le_one.mpr (by nlinarith [sq_nonneg b2])
  have b2b : |b2| ≤ 1 := abs_le_one_iff_mul_self_le_one.mpr (by nlinarith [sq_nonneg b1])
  have d1 := abs_nonneg (w1 - a1)
  have d2 := abs_nonneg (w2 - a2)
  have f1 := abs_nonneg (z1 - b1)
  have f2 := abs_nonneg (z2 - b2)
  have key : ∀ {x y p q : ℝ}, |x| ≤ 1 → |y| ≤ 1 → |p| + |q| ≤ l → |x * q - y * p| ≤ l := by
    intro x y p q hx hy h
    refine (abs_sub _ _).trans ?_
    rw [abs_mul, abs_mul]
    nlinarith [abs_nonneg p, abs_nonneg q]
  have k1 := key a1b a2b hz
  have k2 := key b1b b2b hw
  have k3 : |(w1 - a1) * (z2 - b2) - (w2 - a2) * (z1 - b1)| ≤ l * l := by
    refine (abs_sub _ _).trans ?_
    rw [abs_mul, abs_mul]
    nlinarith
  have e : a1 * b2 - a2 * b1 = (w1 * z2 - w2 * z1) - (a1 * (z2 - b2) - a2 * (z1 - b1)) + (b1 * (w2 - a2) - b2 * (w1 - a1)) - ((w1 - a1) * (z2 - b2) - (w2 - a2) * (z1 - b1)) := by ring
  have := abs_sub ((w1 * z2 - w2 * z1) - (a1 * (z2 - b2) - a2 * (z1 - b1)) + (b1 * (w2 - a2) - b2 * (w1 - a1))) ((w1 - a1) * (z2 - b2) - (w2 - a2) * (z1 - b1))
  rw [← e] at this
  have t2 := abs_add_le ((w1 * z2 - w2 * z1) - (a1 * (z2 - b2) - a2 * (z1 - b1))) (b1 * (w2 - a2) - b2 * (w1 - a1))
  have t3 := abs_sub (w1 * z2 - w2 * z1) (a1 * (z2 - b2) - a2 * (z1 - b1))
  nlinarith

theorem unit_dir {V : Vec} (hV : V ≠ 0) : (V.1 / vlen V) ^ 2 + (V.2 / vlen V) ^ 2 = 1 := by
  have := vlen_sq V
  have m0 := vlen_pos hV
  field_simp
  linarith

theorem round_dir (h : FloatLike u A) {ε e a d : ℝ} (he : e ≠ 0) (hd : |d - a| ≤ ε) (ha : |a| ≤ 1) : |A.fl (e * d) / e - a| ≤ u * (1 + ε) + ε := by
  have h0 := u_nonneg h.rounds
  have r := h.rounds (e * d)
  have e1 : A.fl (e * d) / e - d = (A.fl (e * d) - e * d) / e := by field_simp
  have e2 : |A.fl (e * d) / e - d| ≤ u * |d| := by
    rw [e1, abs_div, div_le_iff₀ (abs_pos.mpr he)]
    rw [abs_mul] at r
    linarith
  have db : |d| ≤ 1 + ε := by
    have := abs_sub_abs_le_abs_sub d a
    linarith
  have := abs_sub_le (A.fl (e * d) / e) d a
  have := mul_le_mul_of_nonneg_left db h0
  linarith

/-- The exact intersection of the two rounded vectors is near the true position. -/
theorem exact_near {ρ r1 r2 w1 w2 z1 z2 l t : ℝ} (hl : 0 ≤ l) (ht : 0 < t) (hdet : t ≤ |w1 * z2 - w2 * z1|) (hw : w1 ^ 2 + w2 ^ 2 ≤ (1 + l) ^ 2) (hz : z1 ^ 2 + z2 ^ 2 ≤ (1 + l) ^ 2)
    (hρ : (|r1| + |r2|) * (1 + l) ≤ ρ * t) : ∃ x1 x2, x1 * w1 + x2 * w2 = r1 ∧ x1 * z1 + x2 * z2 = r2 ∧ |x1| ≤ ρ ∧ |x2| ≤ ρ := by
  have dp : 0 < |w1 * z2 - w2 * z1| := ht.trans_le hdet
  have d0 : w1 * z2 - w2 * z1 ≠ 0 := abs_pos.mp dp
  have ρ0 : 0 ≤ ρ := by
    by_contra hc
    have : 0 ≤ (|r1| + |r2|) * (1 + l) := by positivity
    nlinarith
  have b1 : ∀ {x y : ℝ}, x ^ 2 + y ^ 2 ≤ (1 + l) ^ 2 → |x| ≤ 1 + l ∧ |y| ≤ 1 + l := fun {x y} hh =>
    ⟨abs_le_of_sq_le_sq (by nlinarith [sq_nonneg y]) (by linarith), abs_le_of_sq_le_sq (by nlinarith [sq_nonneg x]) (by linarith)⟩
  have key : ∀ {p q : ℝ}, |p| ≤ 1 + l → |q| ≤ 1 + l → |(r1 * p - r2 * q) / (w1 * z2 - w2 * z1)| ≤ ρ := by
    intro p q hp hq
    rw [abs_div, div_le_iff₀ dp]
    have n : |r1 * p - r2 * q| ≤ (|r1| + |r2|) * (1 + l) := by
      refine (abs_sub _ _).trans ?_
      rw [abs_mul, abs_mul, add_mul]
      exact add_le_add (mul_le_mul_of_nonneg_left hp (abs_nonneg _)) (mul_le_mul_of_nonneg_left hq (abs_nonneg _))
    exact n.trans (hρ.trans (mul_le_mul_of_nonneg_left hdet ρ0))
  refine ⟨(r1 * z2 - r2 * w2) / (w1 * z2 - w2 * z1), -((r1 * z1 - r2 * w1) / (w1 * z2 - w2 * z1)), ?_, ?_, key (b1 hz).2 (b1 hw).2, ?_⟩
  · rw [neg_mul, div_mul_eq_mul_div, div_mul_eq_mul_div, ← sub_eq_add_neg, ← sub_div, div_eq_iff d0]; ring
  · rw [neg_mul, div_mul_eq_mul_div, div_mul_eq_mul_div, ← sub_eq_add_neg, ← sub_div, div_eq_iff d0]; ring
  · rw [abs_neg]; exact key (b1 hz).1 (b1 hw).1

theorem shift_len {c ρ a b x1 x2 : ℝ} (c0 : 0 ≤ c) (cc : c ^ 2 = a ^ 2 + b ^ 2) (X1 : |x1| ≤ ρ) (X2 : |x2| ≤ ρ) : Real.sqrt ((a + x1) ^ 2 + (b + x2) ^ 2) ≤ c + 2 * ρ := by
  have ρ0 : 0 ≤ ρ := (abs_nonneg _).trans X1
  refine Real.sqrt_le_iff.mpr ⟨by positivity, ?_⟩
  have g1 : |a| ≤ c := abs_le_of_sq_le_sq (by nlinarith [sq_nonneg b]) c0
  have g2 : |b| ≤ c := abs_le_of_sq_le_sq (by nlinarith [sq_nonneg a]) c0
  have m1 : a * x1 ≤ c * ρ := (le_abs_self _).trans (by rw [abs_mul]; exact mul_le_mul g1 X1 (abs_nonneg _) c0)
  have m2 : b * x2 ≤ c * ρ := (le_abs_self _).trans (by rw [abs_mul]; exact mul_le_mul g2 X2 (abs_nonneg _) c0)
  have s1 : x1 ^ 2 ≤ ρ ^ 2 := sq_le_sq' (abs_le.mp X1).1 (abs_le.mp X1).2
  have s2 : x2 ^ 2 ≤ ρ ^ 2 := sq_le_sq' (abs_le.mp X2).1 (abs_le.mp X2).2
  nlinarith

theorem final_round (h : FloatLike u A) {y p r x B ρ : ℝ} (hy : |y - (p - r + x)| ≤ B) (hx : |x| ≤ ρ) : |A.fl (y + r) - p| ≤ (1 + u) * (ρ + B) + u * |p| := by
  have h0 := u_nonneg h.rounds
  have r1 := h.rounds (y + r)
  have a : |y + r - p| ≤ ρ + B := by
    have : y + r - p = (y - (p - r + x)) + x := by ring
    rw [this]
    exact (abs_add_le _ _).trans (by linarith)
  have b : |y + r| ≤ |p| + (ρ + B) := by
    have := abs_sub_abs_le_abs_sub (y + r) p
    linarith
  have cu := mul_le_mul_of_nonneg_left b h0
  have := abs_sub_le (A.fl (y + r)) (y + r) p
  linarith

/-- C267: let the delays of the selected sites be those of straight fronts through the true position `p`, up to errors `τ₁` and `τ₂`, let `s` be a lower bound of the sine of the
angle between the two directions and `ε` the accuracy of the angle functions.  If `p` is farther from the reference in either direction than the error of the mean, the position found
with rounding differs from `p` by at most the stated bound in each coordinate. -/
theorem C267_position (h : FloatLike u A) {ε : ℝ} {dir : Vec → Vec} (hd : Directs ε dir) {ref p va vb : Vec} (hva : va ≠ 0) (hvb : vb ≠ 0)
    {R₁ D₁ τ₁ R₂ D₂ τ₂ : ℝ} {n₁ n₂ : ℕ} {rows₁ rows₂ : List (Vec × Option ℝ)} (hw₁ : WaveRows ref p va R₁ D₁ τ₁ n₁ rows₁) (hw₂ : WaveRows ref p vb R₂ D₂ τ₂ n₂ rows₂)
    {s l Δ₁ Δ₂ t ρ e K : ℝ} (hs : s * (vlen va * vlen vb) ≤ |va.1 * vb.2 - va.2 * vb.1|)
    (hl : l = 2 * (u * (1 + ε) + ε)) (ht : t = s - l * (2 + l)) (he : e = 1 / (1 - u) ^ 4 - 1)
    (hΔ₁ : Δ₁ = (1 / (1 - u) ^ (n₁ + 8) - 1) * (D₁ + R₁) + τ₁ * vlen va) (hΔ₂ : Δ₂ = (1 / (1 - u) ^ (n₂ + 8) - 1) * (D₂ + R₂) + τ₂ * vlen vb)
    (hρ : ρ = ((Δ₁ + Δ₂) * (1 + l) ^ 2 + 2 * pdist p ref * (3 * l + l ^ 2)) * (1 + l) / t)
    (hK : K = (1 + u) * (3 * e / (t / (1 + l) ^ 2 - e)) + u)
    (het : e < t / (1 + l) ^ 2) (h₁ : Δ₁ < |along p ref va|) (h₂ : Δ₂ < |along p ref vb|) :
    ∃ x : Vec, predictF A dir ref va vb rows₁ rows₂ = (.fin x.1, .fin x.2) ∧
      |x.1 - p.1| ≤ (1 + u) * (ρ + K * (pdist p ref + 2 * ρ)) + u * |p.1| ∧ |x.2 - p.2| ≤ (1 + u) * (ρ + K * (pdist p ref + 2 * ρ)) + u * |p.2| := by
  have h0 := u_nonneg h.rounds
  have h1 := h.lt_one
  obtain ⟨ea, ha, na⟩ := meanError_near h hva hw₁
  obtain ⟨eb, hb, nb⟩ := meanError_near h hvb hw₂
  have na' : |ea - along p ref va| ≤ Δ₁ := by rw [hΔ₁]; exact na
  have nb' : |eb - along p ref vb| ≤ Δ₂ := by rw [hΔ₂]; exact nb
  clear na nb hΔ₁ hΔ₂ hw₁ hw₂
  have e0 : 0 ≤ e := by rw [he]; exact gr_nonneg h0 h1 4
  have ea0 : ea ≠ 0 := by
    rintro rfl
    rw [zero_sub, abs_neg] at na'
    linarith
  have eb0 : eb ≠ 0 := by
    rintro rfl
    rw [zero_sub, abs_neg] at nb'
    linarith
  have ε0 : 0 ≤ ε := (abs_nonneg _).trans (hd va hva).1
  have l0 : 0 ≤ l := by rw [hl]; positivity
  have L0 : 0 < (1 + l) ^ 2 := by positivity
  have t0 : 0 < t := by
    by_contra hc
    have := div_nonpos_of_nonpos_of_nonneg (not_lt.mp hc) L0.le
    linarith
  have ma := vlen_pos hva
  have mb := vlen_pos hvb
  have ua := unit_dir hva
  have ub := unit_dir hvb
  set a1 := va.1 / vlen va with ha1
  set a2 := va.2 / vlen va with ha2
  set b1 := vb.1 / vlen vb with hb1
  set b2 := vb.2 / vlen vb with hb2
  have a1b : |a1| ≤ 1 := abs_le_one_iff_mul_self_le_one.mpr (by nlinarith [sq_nonneg a2])
  have a2b : |a2| ≤ 1 := abs_le_one_iff_mul_self_le_one.mpr (by nlinarith [sq_nonneg a1])
  have b1b : |b1| ≤ 1 := abs_le_one_iff_mul_self_le_one.mpr (by nlinarith [sq_nonneg b2])
  have b2b : |b2| ≤ 1 := abs_le_one_iff_mul_self_le_one.mpr (by nlinarith [sq_nonneg b1])
  set w1 := A.fl (ea * (dir va).1) / ea with hw1
  set w2 := A.fl (ea * (dir va).2) / ea with hw2
  set z1 := A.fl (eb * (dir vb).1) / eb with hz1
  set z2 := A.fl (eb * (dir vb).2) / eb with hz2
  have fw1 : A.fl (ea * (dir va).1) = ea * w1 := by rw [hw1]; field_simp
  have fw2 : A.fl (ea * (dir va).2) = ea * w2 := by rw [hw2]; field_simp
  have fz1 : A.fl (eb * (dir vb).1) = eb * z1 := by rw [hz1]; field_simp
  have fz2 : A.fl (eb * (dir vb).2) = eb * z2 := by rw [hz2]; field_simp
  have dw : |w1 - a1| + |w2 - a2| ≤ l := by
    have := round_dir h ea0 (hd va hva).1 a1b
    have := round_dir h ea0 (hd va hva).2 a2b
    rw [hl]; linarith
  have dz : |z1 - b1| + |z2 - b2| ≤ l := by
    have := round_dir h eb0 (hd vb hvb).1 b1b
    have := round_dir h eb0 (hd vb hvb).2 b2b
    rw [hl]; linarith
  clear_value w1 w2 z1 z2
  have sd : s ≤ |a1 * b2 - a2 * b1| := by
    have : a1 * b2 - a2 * b1 = (va.1 * vb.2 - va.2 * vb.1) / (vlen va * vlen vb) := by rw [ha1, ha2, hb1, hb2]; field_simp
    rw [this, abs_div, abs_of_pos (mul_pos ma mb), le_div_iff₀ (mul_pos ma mb)]
    exact hs
  have det := det_near l0 ua ub dw dz sd
  rw [← ht] at det
  have c0 : 0 ≤ pdist p ref := Real.sqrt_nonneg _
  have cc : pdist p ref ^ 2 = (p.1 - ref.1) ^ 2 + (p.2 - ref.2) ^ 2 := by unfold pdist; rw [Real.sq_sqrt (by positivity)]
  set c := pdist p ref with hc
  have la : along p ref va = (p.1 - ref.1) * a1 + (p.2 - ref.2) * a2 := by unfold along; rw [ha1, ha2]; ring
  have lb : along p ref vb = (p.1 - ref.1) * b1 + (p.2 - ref.2) * b2 := by unfold along; rw [hb1, hb2]; ring
  rw [la] at na'
  rw [lb] at nb'
  obtain ⟨wn, ra⟩ := residual l0 ua dw c0 cc na'
  obtain ⟨zn, rb⟩ := residual l0 ub dz c0 cc nb'
  have hρt : (|ea * (w1 ^ 2 + w2 ^ 2) - ((p.1 - ref.1) * w1 + (p.2 - ref.2) * w2)| + |eb * (z1 ^ 2 + z2 ^ 2) - ((p.1 - ref.1) * z1 + (p.2 - ref.2) * z2)|) * (1 + l) ≤ ρ * t := by
    rw [hρ, div_mul_cancel₀ _ t0.ne']
    refine mul_le_mul_of_nonneg_right ?_ (by linarith)
    linarith
  obtain ⟨x1, x2, q1, q2, X1, X2⟩ := exact_near l0 t0 det wn zn hρt
  have ρ0 : 0 ≤ ρ := (abs_nonneg _).trans X1
  have nz : ∀ {x y : ℝ}, x * y ≠ 0 → x ≠ 0 ∧ y ≠ 0 := fun hh => ⟨left_ne_zero_of_mul hh, right_ne_zero_of_mul hh⟩
  have dne : w1 * z2 - w2 * z1 ≠ 0 := abs_pos.mp (t0.trans_le det)
  have hA0 : ((ea * w1, ea * w2) : Vec) ≠ 0 := by
    intro hh
    have e1 : ea * w1 = 0 := congrArg Prod.fst hh
    have e2 : ea * w2 = 0 := congrArg Prod.snd hh
    have f1 := (mul_eq_zero.mp e1).resolve_left ea0
    have f2 := (mul_eq_zero.mp e2).resolve_left ea0
    exact dne (by rw [f1, f2]; ring)
  have hB0 : ((eb * z1, eb * z2) : Vec) ≠ 0 := by
    intro hh
    have e1 : eb * z1 = 0 := congrArg Prod.fst hh
    have e2 : eb * z2 = 0 := congrArg Prod.snd hh
    have f1 := (mul_eq_zero.mp e1).resolve_left eb0
    have f2 := (mul_eq_zero.mp e2).resolve_left eb0
    exact dne (by rw [f1, f2]; ring)
  have sq : ∀ {x y k : ℝ}, x ^ 2 + y ^ 2 ≤ (1 + l) ^ 2 → Real.sqrt ((k * x) ^ 2 + (k * y) ^ 2) ≤ |k| * (1 + l) := by
    intro x y k hh
    refine Real.sqrt_le_iff.mpr ⟨by positivity, ?_⟩
    have : (k * x) ^ 2 + (k * y) ^ 2 = k ^ 2 * (x ^ 2 + y ^ 2) := by ring
    rw [this, mul_pow, sq_abs]
    exact mul_le_mul_of_nonneg_left hh (sq_nonneg _)
  have hσ : t / (1 + l) ^ 2 * (Real.sqrt ((ea * w1) ^ 2 + (ea * w2) ^ 2) * Real.sqrt ((eb * z1) ^ 2 + (eb * z2) ^ 2)) ≤ |eb * z1 * (ea * w2) - ea * w1 * (eb * z2)| := by
    have e1 : eb * z1 * (ea * w2) - ea * w1 * (eb * z2) = -(ea * eb * (w1 * z2 - w2 * z1)) := by ring
    rw [e1, abs_neg, abs_mul, abs_mul]
    have m := mul_le_mul (sq wn (k := ea)) (sq zn (k := eb)) (Real.sqrt_nonneg _) (by positivity)
    have m2 := mul_le_mul_of_nonneg_left m (div_pos t0 L0).le
    refine m2.trans ?_
    have e2 : t / (1 + l) ^ 2 * (|ea| * (1 + l) * (|eb| * (1 + l))) = |ea| * |eb| * t := by field_simp
    rw [e2]
    exact mul_le_mul_of_nonneg_left det (by positivity)
  obtain ⟨y, hy, y1, y2⟩ := C262_intersection h (ea * w1, ea * w2) (eb * z1, eb * z2) (p.1 - ref.1 + x1, p.2 - ref.2 + x2)
    (by simp only; linear_combination ea * q1) (by simp only; linear_combination eb * q2) ⟨hA0, hB0⟩ (he ▸ het) hσ
  simp only at y1 y2
  rw [← he, ← hK] at y1 y2
  have K0 : 0 ≤ K := by
    have : 0 ≤ 3 * e / (t / (1 + l) ^ 2 - e) := div_nonneg (by linarith) (by linarith)
    rw [hK]; positivity
  have cl : Real.sqrt ((p.1 - ref.1 + x1) ^ 2 + (p.2 - ref.2 + x2) ^ 2) ≤ c + 2 * ρ := shift_len c0 cc X1 X2
  have kc := mul_le_mul_of_nonneg_left cl K0
  refine ⟨(A.fl (y.1 + ref.1), A.fl (y.2 + ref.2)), ?_, final_round h (y1.trans kc) X1, final_round h (y2.trans kc) X2⟩
  unfold predictF positionFromF
  simp only [ha, hb, fw1, fw2, fz1, fz2, hy, addF]

theorem u53 : (2 : ℝ) ^ (-53 : ℤ) = 1 / 9007199254740992 := by norm_num [zpow_neg]

theorem u50 : (2 : ℝ) ^ (-50 : ℤ) = 1 / 1125899906842624 := by norm_num [zpow_neg]

/-- The bound for float64 in plain numbers. -/
theorem bound_num {u l t ρ e K Δ c T q : ℝ} (hu0 : 0 ≤ u) (hu : u ≤ 2e-16) (hl0 : 0 ≤ l) (hl : l ≤ 1e-14) (ht : 0.4999 ≤ t) (he0 : 0 ≤ e) (he : e ≤ 1e-15) (hΔ : Δ ≤ 2 * T + 1e-9)
    (hT : 0 ≤ T) (hΔ0 : 0 ≤ Δ) (hc0 : 0 ≤ c) (hc : c ≤ 1000) (hq : q ≤ 1e7) (hρ : ρ = (Δ * (1 + l) ^ 2 + 2 * c * (3 * l + l ^ 2)) * (1 + l) / t)
    (hK : K = (1 + u) * (3 * e / (t / (1 + l) ^ 2 - e)) + u) : (1 + u) * (ρ + K * (c + 2 * ρ)) + u * q ≤ 5 * T + 1e-8 := by
  have l2 : (1 + l) ^ 2 ≤ 1.001 := by nlinarith
  have L0 : 0 < (1 + l) ^ 2 := by positivity
  have t0 : 0 < t := by linarith
  have ρ1 : ρ ≤ 4.1 * T + 3e-9 := by
    rw [hρ, div_le_iff₀ t0]
    have a : Δ * (1 + l) ^ 2 ≤ (2 * T + 1e-9) * 1.001 := mul_le_mul hΔ l2 L0.le (by linarith)
    have b1 : 3 * l + l ^ 2 ≤ 4e-14 := by nlinarith
    have b : 2 * c * (3 * l + l ^ 2) ≤ 2000 * 4e-14 := mul_le_mul (by linarith) b1 (by positivity) (by norm_num)
    have c' : (Δ * (1 + l) ^ 2 + 2 * c * (3 * l + l ^ 2)) * (1 + l) ≤ ((2 * T + 1e-9) * 1.001 + 2000 * 4e-14) * 1.001 :=
      mul_le_mul (by linarith) (by linarith) (by linarith) (by positivity)
    have d : (4.1 * T + 3e-9) * 0.4999 ≤ (4.1 * T + 3e-9) * t := mul_le_mul_of_nonneg_left ht (by positivity)
    linarith
  have ρ0 : 0 ≤ ρ := by rw [hρ]; positivity
  have σ : 0.49 ≤ t / (1 + l) ^ 2 - e := by
    have : 0.495 ≤ t / (1 + l) ^ 2 := by
      rw [le_div_iff₀ L0]; linarith
    linarith
  have K1 : K ≤ 1e-14 := by
    have a : 3 * e / (t / (1 + l) ^ 2 - e) ≤ 7e-15 := by
      rw [div_le_iff₀ (by linarith)]
      linarith
    have a0 : 0 ≤ 3 * e / (t / (1 + l) ^ 2 - e) := div_nonneg (by linarith) (by linarith)
    rw [hK]
    nlinarith
  have K2 : K * (c + 2 * ρ) ≤ 1e-14 * (1000 + 2 * (4.1 * T + 3e-9)) := mul_le_mul K1 (by linarith) (by linarith) (by norm_num)
  have B : ρ + K * (c + 2 * ρ) ≤ 4.2 * T + 4e-9 := by linarith
  have B1 : (1 + u) * (ρ + K * (c + 2 * ρ)) ≤ (1 + 2e-16) * (4.2 * T + 4e-9) := by
    refine (mul_le_mul_of_nonneg_left B (by linarith)).trans (mul_le_mul_of_nonneg_right (by linarith) (by positivity))
  have uq : u * q ≤ 2e-16 * 1e7 := (mul_le_mul_of_nonneg_left hq hu0).trans (mul_le_mul_of_nonneg_right hu (by norm_num))
  linarith

/-- C267 for float64: at most 1000 selected sites within 1 km of the reference, fronts that move at most 1 km during a delay, angle functions accurate to `2⁻⁵⁰`, directions at least 30
degrees apart, coordinates up to `10⁷`.  If the delays are right up to the time in which the front moves by `T`, and the true position is more than `T + 10⁻⁹` from the reference in either
direction, the position found is at most `5 T + 10⁻⁸` away in each coordinate. -/
theorem C267_float64 (h : FloatLike (2 ^ (-53 : ℤ)) A) {dir : Vec → Vec} (hd : Directs (2 ^ (-50 : ℤ)) dir) {ref p va vb : Vec} (hva : va ≠ 0) (hvb : vb ≠ 0) {τ₁ τ₂ T : ℝ}
    {rows₁ rows₂ : List (Vec × Option ℝ)} (hw₁ : WaveRows ref p va 1000 1000 τ₁ 1000 rows₁) (hw₂ : WaveRows ref p vb 1000 1000 τ₂ 1000 rows₂)
    (hT₁ : τ₁ * vlen va ≤ T) (hT₂ : τ₂ * vlen vb ≤ T) (hs : 1 / 2 * (vlen va * vlen vb) ≤ |va.1 * vb.2 - va.2 * vb.1|) (hp : pdist p ref ≤ 1000) (hp1 : |p.1| ≤ 10 ^ 7) (hp2 : |p.2| ≤ 10 ^ 7)
    (h₁ : T + 1e-9 < |along p ref va|) (h₂ : T + 1e-9 < |along p ref vb|) :
    ∃ x : Vec, predictF A dir ref va vb rows₁ rows₂ = (.fin x.1, .fin x.2) ∧ |x.1 - p.1| ≤ 5 * T + 1e-8 ∧ |x.2 - p.2| ≤ 5 * T + 1e-8 := by
  rw [u53] at h
  rw [u50] at hd
  have nonneg : ∀ {τ : ℝ} {V : Vec} {rows : List (Vec × Option ℝ)}, V ≠ 0 → WaveRows ref p V 1000 1000 τ 1000 rows → 0 ≤ τ * vlen V := by
    intro τ V rows hV hw
    obtain ⟨r, hr, hn⟩ := hw.present
    obtain ⟨d, hd⟩ := Option.ne_none_iff_exists'.mp hn
    exact mul_nonneg ((abs_nonneg _).trans (hw.wave r hr d hd)) (vlen_pos hV).le
  have T1 := nonneg hva hw₁
  have T2 := nonneg hvb hw₂
  have hT : 0 ≤ T := T1.trans hT₁
  have g8 := gr_le (u := 1 / 9007199254740992) (by norm_num) (by norm_num) (k := 1000 + 8) (by norm_num)
  have g80 := gr_nonneg (u := 1 / 9007199254740992) (by norm_num) (by norm_num) (1000 + 8)
  have g4 := gr_le (u := 1 / 9007199254740992) (by norm_num) (by norm_num) (k := 4) (by norm_num)
  have g40 := gr_nonneg (u := 1 / 9007199254740992) (by norm_num) (by norm_num) 4
  unfold gr at g8 g80 g4 g40
  set G := 1 / (1 - 1 / 9007199254740992 : ℝ) ^ (1000 + 8) - 1 with hG
  set E := 1 / (1 - 1 / 9007199254740992 : ℝ) ^ 4 - 1 with hE
  clear_value G
  have g8' : G ≤ 2.3e-13 := g8.trans (by norm_num)
  have g4' : E ≤ 1e-15 := g4.trans (by norm_num)
  set l : ℝ := 2 * (1 / 9007199254740992 * (1 + 1 / 1125899906842624) + 1 / 1125899906842624) with hl
  have l0 : 0 ≤ l := by rw [hl]; norm_num
  have l1 : l ≤ 1e-14 := by rw [hl]; norm_num
  have t1 : 0.4999 ≤ 1 / 2 - l * (2 + l) := by nlinarith
  have lt1 : E < (1 / 2 - l * (2 + l)) / (1 + l) ^ 2 := by
    rw [lt_div_iff₀ (by positivity)]
    have : (1 + l) ^ 2 ≤ 2 := (pow_le_pow_left₀ (by linarith) (by linarith : 1 + l ≤ 1 + 1e-14) 2).trans (by norm_num)
    have := mul_le_mul g4' this (by positivity) (by norm_num)
    linarith
  have pos := C267_position h hd hva hvb hw₁ hw₂ (s := 1 / 2) (l := l) (t := 1 / 2 - l * (2 + l)) (e := E) (Δ₁ := G * (1000 + 1000) + τ₁ * vlen va) (Δ₂ := G * (1000 + 1000) + τ₂ * vlen vb) hs hl rfl hE (by rw [hG]) (by rw [hG]) rfl rfl lt1 (by linarith) (by linarith)
  obtain ⟨x, hx, x1, x2⟩ := pos
  have bn : ∀ {q : ℝ}, |q| ≤ 10 ^ 7 → _ := fun {q} hq => bound_num (u := 1 / 9007199254740992) (q := |q|) (by norm_num) (by norm_num) l0 l1 t1 g40 g4'
    (Δ := (G * (1000 + 1000) + τ₁ * vlen va) + (G * (1000 + 1000) + τ₂ * vlen vb)) (T := T) (by linarith) hT (by linarith) (Real.sqrt_nonneg _) hp (by linarith) rfl rfl
  exact ⟨x, hx, x1.trans (bn hp1), x2.trans (bn hp2)⟩

/-- Directions as exact unit vectors. -/
theorem directs_exact : Directs (2 ^ (-50 : ℤ)) fun V => (V.1 / vlen V, V.2 / vlen V) := fun V _ => by
  simp only [sub_self, abs_zero]
  exact ⟨by positivity, by positivity⟩

theorem vlen_10 : vlen (10, 0) = 10 := by
  unfold vlen
  rw [Real.sqrt_eq_iff_mul_self_eq (by norm_num) (by norm_num)]; norm_num

theorem vlen_5 : vlen (0, 5) = 5 := by
  unfold vlen
  rw [Real.sqrt_eq_iff_mul_self_eq (by norm_num) (by norm_num)]; norm_num

theorem pdist_small {x : Vec} (h : x.1 ^ 2 + x.2 ^ 2 ≤ 1000 ^ 2) : pdist x (0, 0) ≤ 1000 := by
  unfold pdist
  refine Real.sqrt_le_iff.mpr ⟨by norm_num, ?_⟩
  simpa using h

/-- Two fronts in the directions of the axes, one site without a delay, numbers rounded to 53 digits. -/
example : ∃ x : Vec, predictF ⟨round53, sum53⟩ (fun V => (V.1 / vlen V, V.2 / vlen V)) (0, 0) (10, 0) (0, 5) [((100, 0), some 7), ((0, 50), none)] [((0, 90), some 10)] =
    (.fin x.1, .fin x.2) ∧ |x.1 - 30| ≤ 5 * 0 + 1e-8 ∧ |x.2 - 40| ≤ 5 * 0 + 1e-8 := by
  have w1 : WaveRows (0, 0) (30, 40) (10, 0) 1000 1000 0 1000 [((100, 0), some 7), ((0, 50), none)] := by
    refine ⟨by simp, ⟨_, List.mem_cons_self, by simp⟩, ?_, ?_, ?_⟩
    · simp only [List.mem_cons, List.not_mem_nil, or_false]
      rintro r (rfl | rfl) <;> exact pdist_small (by norm_num)
    · simp only [List.mem_cons, List.not_mem_nil, or_false, vlen_10]
      rintro r (rfl | rfl) d hd
      · simp only [Option.some.injEq] at hd; subst hd; norm_num
      · simp at hd
    · simp only [List.mem_cons, List.not_mem_nil, or_false]
      rintro r (rfl | rfl) d hd
      · simp only [Option.some.injEq] at hd; subst hd; norm_num [planeDelay]
      · simp at hd
  have w2 : WaveRows (0, 0) (30, 40) (0, 5) 1000 1000 0 1000 [((0, 90), some 10)] := by
    refine ⟨by simp, ⟨_, List.mem_cons_self, by simp⟩, ?_, ?_, ?_⟩
    · simp only [List.mem_cons, List.not_mem_nil, or_false]
      rintro r rfl; exact pdist_small (by norm_num)
    · simp only [List.mem_cons, List.not_mem_nil, or_false, vlen_5]
      rintro r rfl d hd
      simp only [Option.some.injEq] at hd; subst hd; norm_num
    · simp only [List.mem_cons, List.not_mem_nil, or_false]
      rintro r rfl d hd
      simp only [Option.some.injEq] at hd; subst hd; norm_num [planeDelay]
  exact C267_float64 (p := (30, 40)) (T := 0) float53 directs_exact (by simp) (by simp) w1 w2 (by simp) (by simp) (by rw [vlen_10, vlen_5]; norm_num) (pdist_small (by norm_num))
    (by norm_num) (by norm_num) (by unfold along; rw [vlen_10]; norm_num) (by unfold along; rw [vlen_5]; norm_num)

end SST.Round
