import Verif.Model.Round
import Verif.Spec.Round
import Verif.Proofs.Stats

/-!
# Rounding: relative errors of operations and sums
-/

namespace SST.Round
open SST SST.Stats

section
variable {u : ℝ} {fl : ℝ → ℝ}

theorem u_nonneg (h : RoundsTo u fl) : 0 ≤ u := by
  have := h 1
  rw [abs_one, mul_one] at this
  exact (abs_nonneg _).trans this

theorem pow_unit (h0 : 0 ≤ u) (h1 : u < 1) (k : ℕ) : 0 < (1 - u) ^ k ∧ (1 - u) ^ k ≤ 1 :=
  ⟨by have : 0 < 1 - u := by linarith
      positivity, pow_le_one₀ (by linarith) (by linarith)⟩

theorem Near.refl (x : ℝ) : Near u 0 x x := by simp [Near]

theorem Near.nonneg (h1 : u < 1) {k : ℕ} {x v : ℝ} (h : Near u k x v) (hx : 0 ≤ x) : 0 ≤ v := by
  have : 0 < 1 - u := by linarith
  have : 0 ≤ (1 - u) ^ k * x := by positivity
  exact this.trans h.1

theorem Near.mono (h0 : 0 ≤ u) (h1 : u < 1) {k l : ℕ} (hkl : k ≤ l) {x v : ℝ} (hx : 0 ≤ x) (h : Near u k x v) : Near u l x v := by
  have hv := h.nonneg h1 hx
  have : (1 - u) ^ l ≤ (1 - u) ^ k := pow_le_pow_of_le_one (by linarith) (by linarith) hkl
  exact ⟨(mul_le_mul_of_nonneg_right this hx).trans h.1, (mul_le_mul_of_nonneg_right this hv).trans h.2⟩

theorem Near.trans (h0 : 0 ≤ u) (h1 : u < 1) {k l : ℕ} {x v w : ℝ} (h : Near u k x v) (h' : Near u l v w) : Near u (k + l) x w := by
  obtain ⟨pk, -⟩ := pow_unit h0 h1 k
  obtain ⟨pl, -⟩ := pow_unit h0 h1 l
  constructor
  · rw [pow_add, mul_comm ((1 - u) ^ k), mul_assoc]
    exact (mul_le_mul_of_nonneg_left h.1 pl.le).trans h'.1
  · rw [pow_add, mul_assoc]
    exact (mul_le_mul_of_nonneg_left h'.2 pk.le).trans h.2

theorem near_fl (hr : RoundsTo u fl) (h1 : u < 1) {x : ℝ} (hx : 0 ≤ x) : Near u 1 x (fl x) := by
  have h := hr x
  have h0 := u_nonneg hr
  rw [abs_of_nonneg hx, abs_le] at h
  constructor
  · rw [pow_one]; linarith
  · rw [pow_one]
    have : (1 - u) * fl x ≤ (1 - u) * ((1 + u) * x) := mul_le_mul_of_nonneg_left (by linarith) (by linarith)
    nlinarith [mul_nonneg (mul_nonneg h0 h0) hx]

theorem Near.rnd (hr : RoundsTo u fl) (h1 : u < 1) {k : ℕ} {x v : ℝ} (hx : 0 ≤ x) (h : Near u k x v) : Near u (k + 1) x (fl v) :=
  h.trans (u_nonneg hr) h1 (near_fl hr h1 (h.nonneg h1 hx))

/-- The size of a rounded number of either sign. -/
theorem near_abs (hr : RoundsTo u fl) (h1 : u < 1) (x : ℝ) : Near u 1 |x| |fl x| := by
  have h := hr x
  have h0 := u_nonneg hr
  have a := abs_sub_abs_le_abs_sub (fl x) x
  have b := abs_sub_abs_le_abs_sub x (fl x)
  rw [abs_sub_comm] at b
  have hx := abs_nonneg x
  constructor
  · rw [pow_one]; linarith
  · rw [pow_one]
    have : (1 - u) * |fl x| ≤ (1 - u) * ((1 + u) * |x|) := mul_le_mul_of_nonneg_left (by linarith) (by linarith)
    nlinarith [mul_nonneg (mul_nonneg h0 h0) hx]

theorem Near.add {k : ℕ} {x v y w : ℝ} (h : Near u k x v) (h' : Near u k y w) : Near u k (x + y) (v + w) :=
  ⟨by rw [mul_add]; exact add_le_add h.1 h'.1, by rw [mul_add]; exact add_le_add h.2 h'.2⟩

theorem Near.mul (h0 : 0 ≤ u) (h1 : u < 1) {k l : ℕ} {x v y w : ℝ} (hx : 0 ≤ x) (hy : 0 ≤ y) (h : Near u k x v) (h' : Near u l y w) :
    Near u (k + l) (x * y) (v * w) := by
  obtain ⟨pk, -⟩ := pow_unit h0 h1 k
  obtain ⟨pl, -⟩ := pow_unit h0 h1 l
  have hv := h.nonneg h1 hx
  have hw := h'.nonneg h1 hy
  constructor
  · calc (1 - u) ^ (k + l) * (x * y) = ((1 - u) ^ k * x) * ((1 - u) ^ l * y) := by rw [pow_add]; ring
      _ ≤ v * w := mul_le_mul h.1 h'.1 (by positivity) hv
  · calc (1 - u) ^ (k + l) * (v * w) = ((1 - u) ^ k * v) * ((1 - u) ^ l * w) := by rw [pow_add]; ring
      _ ≤ x * y := mul_le_mul h.2 h'.2 (by positivity) hx

theorem Near.sq (h0 : 0 ≤ u) (h1 : u < 1) {k : ℕ} {x v : ℝ} (h : Near u k |x| |v|) : Near u (k + k) (x ^ 2) (v ^ 2) := by
  have := h.mul h0 h1 (abs_nonneg x) (abs_nonneg x) h
  rwa [abs_mul_abs_self, abs_mul_abs_self, ← pow_two, ← pow_two] at this

theorem Near.sqrt (h0 : 0 ≤ u) (h1 : u < 1) {k : ℕ} {x v : ℝ} (h : Near u k x v) : Near u k (Real.sqrt x) (Real.sqrt v) := by
  obtain ⟨pk, pk1⟩ := pow_unit h0 h1 k
  have e : ∀ y : ℝ, (1 - u) ^ k * Real.sqrt y ≤ Real.sqrt ((1 - u) ^ k * y) := by
    intro y
    rw [Real.sqrt_mul pk.le]
    refine mul_le_mul_of_nonneg_right ?_ (Real.sqrt_nonneg _)
    exact Real.le_sqrt_of_sq_le (by nlinarith)
  exact ⟨(e x).trans (Real.sqrt_le_sqrt h.1), (e v).trans (Real.sqrt_le_sqrt h.2)⟩

theorem Near.pos (h0 : 0 ≤ u) (h1 : u < 1) {k : ℕ} {x v : ℝ} (h : Near u k x v) (hx : 0 < x) : 0 < v := by
  obtain ⟨pk, -⟩ := pow_unit h0 h1 k
  exact (mul_pos pk hx).trans_le h.1

theorem Near.zero (h0 : 0 ≤ u) (h1 : u < 1) {k : ℕ} {v : ℝ} (h : Near u k 0 v) : v = 0 := by
  obtain ⟨pk, -⟩ := pow_unit h0 h1 k
  have := h.1
  have h2 := h.2
  rw [mul_zero] at this
  exact le_antisymm (nonpos_of_mul_nonpos_right h2 pk) this

theorem Near.div (h0 : 0 ≤ u) (h1 : u < 1) {k l : ℕ} {x v y w : ℝ} (hx : 0 ≤ x) (hy : 0 < y) (h : Near u k x v) (h' : Near u l y w) :
    Near u (k + l) (x / y) (v / w) := by
  obtain ⟨pk, -⟩ := pow_unit h0 h1 k
  obtain ⟨pl, -⟩ := pow_unit h0 h1 l
  have hw := h'.pos h0 h1 hy
  have hv := h.nonneg h1 hx
  constructor
  · rw [← mul_div_assoc, div_le_div_iff₀ hy hw, pow_add]
    calc (1 - u) ^ k * (1 - u) ^ l * x * w = ((1 - u) ^ k * x) * ((1 - u) ^ l * w) := by ring
      _ ≤ v * y := mul_le_mul h.1 h'.2 (by positivity) hv
  · rw [← mul_div_assoc, div_le_div_iff₀ hw hy, pow_add]
    calc (1 - u) ^ k * (1 - u) ^ l * v * y = ((1 - u) ^ k * v) * ((1 - u) ^ l * y) := by ring
      _ ≤ x * w := mul_le_mul h.2 h'.1 (by positivity) hx

theorem AnyOrder.ne_nil {l : List ℝ} {a : ℝ} (h : AnyOrder fl l a) : l ≠ [] := by
  induction h with
  | one => simp
  | add h h' ih ih' => simp [ih]
  | perm hp _ ih => rintro rfl; exact ih hp.eq_nil

theorem AnyOrder.near (hr : RoundsTo u fl) (h1 : u < 1) {l : List ℝ} {a : ℝ} (h : AnyOrder fl l a) (hl : ∀ x ∈ l, 0 ≤ x) : Near u (l.length - 1) l.sum a := by
  induction h with
  | one x => simp [Near]
  | @add l r a b h h' ih ih' =>
    have h0 := u_nonneg hr
    have l0 : ∀ x ∈ l, 0 ≤ x := fun x hx => hl x (List.mem_append_left _ hx)
    have r0 : ∀ x ∈ r, 0 ≤ x := fun x hx => hl x (List.mem_append_right _ hx)
    have ln := List.length_pos_iff.mpr h.ne_nil
    have rn := List.length_pos_iff.mpr h'.ne_nil
    have e1 := (ih l0).mono h0 h1 (show l.length - 1 ≤ l.length + r.length - 2 by omega) (List.sum_nonneg l0)
    have e2 := (ih' r0).mono h0 h1 (show r.length - 1 ≤ l.length + r.length - 2 by omega) (List.sum_nonneg r0)
    rw [List.sum_append, List.length_append, show l.length + r.length - 1 = l.length + r.length - 2 + 1 by omega]
    exact (e1.add e2).rnd hr h1 (add_nonneg (List.sum_nonneg l0) (List.sum_nonneg r0))
  | @perm l l' a hp _ ih =>
    rw [← hp.sum_eq, ← hp.length_eq]
    exact ih fun x hx => hl x (hp.mem_iff.mp hx)

/-- Terms computed with relative errors, added in any order. -/
theorem AnyOrder.near_map (hr : RoundsTo u fl) (h1 : u < 1) {α : Type} {l : List α} {f g : α → ℝ} {k : ℕ} {a : ℝ} (h : AnyOrder fl (l.map g) a)
    (hf : ∀ x ∈ l, 0 ≤ f x) (hk : ∀ x ∈ l, Near u k (f x) (g x)) : Near u (k + (l.length - 1)) (l.map f).sum a := by
  have e : Near u k (l.map f).sum (l.map g).sum := by
    clear h hf
    induction l with
    | nil => simp [Near]
    | cons x l ih =>
      simp only [List.map_cons, List.sum_cons]
      exact (hk x (by simp)).add (ih fun y hy => hk y (by simp [hy]))
  have := h.near hr h1 (fun y hy => by
    obtain ⟨x, hx, rfl⟩ := List.mem_map.mp hy
    exact (hk x hx).nonneg h1 (hf x hx))
  rw [List.length_map] at this
  exact e.trans (u_nonneg hr) h1 this

/-- Numbers of either sign. -/
theorem AnyOrder.abs_sub (hr : RoundsTo u fl) {l : List ℝ} {a : ℝ} (h : AnyOrder fl l a) :
    |a - l.sum| ≤ ((1 + u) ^ (l.length - 1) - 1) * (l.map fun x => |x|).sum := by
  have h0 := u_nonneg hr
  induction h with
  | one x => simp
  | @add l r a b h h' ih ih' =>
    have ln := List.length_pos_iff.mpr h.ne_nil
    have rn := List.length_pos_iff.mpr h'.ne_nil
    have e := hr (a + b)
    have sa : |l.sum| ≤ (l.map fun x => |x|).sum := by
      have := sum_abs_le l id
      simpa using this
    have sb : |r.sum| ≤ (r.map fun x => |x|).sum := by
      have := sum_abs_le r id
      simpa using this
    rw [List.sum_append, List.map_append, List.sum_append, List.length_append]
    set L := (l.map fun x => |x|).sum
    set R := (r.map fun x => |x|).sum
    have L0 : 0 ≤ L := (abs_nonneg _).trans sa
    have R0 : 0 ≤ R := (abs_nonneg _).trans sb
    have pl : (1 + u) ^ (l.length - 1) ≤ (1 + u) ^ (l.length + r.length - 2) := pow_le_pow_right₀ (by linarith) (by omega)
    have pr : (1 + u) ^ (r.length - 1) ≤ (1 + u) ^ (l.length + r.length - 2) := pow_le_pow_right₀ (by linarith) (by omega)
    rw [show l.length + r.length - 1 = l.length + r.length - 2 + 1 by omega, pow_succ]
    set P := (1 + u) ^ (l.length + r.length - 2)
    have i1 : |a - l.sum| ≤ (P - 1) * L := ih.trans (mul_le_mul_of_nonneg_right (by linarith) L0)
    have i2 : |b - r.sum| ≤ (P - 1) * R := ih'.trans (mul_le_mul_of_nonneg_right (by linarith) R0)
    have ba : |a| ≤ P * L := by
      have := abs_sub_abs_le_abs_sub a l.sum
      linarith
    have bb : |b| ≤ P * R := by
      have := abs_sub_abs_le_abs_sub b r.sum
      linarith
    have hab : u * |a + b| ≤ u * (P * L + P * R) := mul_le_mul_of_nonneg_left ((abs_add_le a b).trans (add_le_add ba bb)) h0
    have tri : |fl (a + b) - (l.sum + r.sum)| ≤ |fl (a + b) - (a + b)| + (|a - l.sum| + |b - r.sum|) := by
      have : fl (a + b) - (l.sum + r.sum) = (fl (a + b) - (a + b)) + ((a - l.sum) + (b - r.sum)) := by ring
      rw [this]
      exact (abs_add_le _ _).trans (add_le_add le_rfl (abs_add_le _ _))
    calc |fl (a + b) - (l.sum + r.sum)| ≤ u * (P * L + P * R) + ((P - 1) * L + (P - 1) * R) := by linarith
      _ = (P * (1 + u) - 1) * (L + R) := by ring
  | @perm l l' a hp _ ih =>
    rw [← hp.sum_eq, ← hp.length_eq, ← (hp.map _).sum_eq]
    exact ih

end

end SST.Round
