import Verif.Props.RoundCross

/-!
# Errors relative to a given size
-/

namespace SST.Round
open SST

/-- Growth of the error by `k` roundings. -/
noncomputable def gr (u : ℝ) (k : ℕ) : ℝ := 1 / (1 - u) ^ k - 1

/-- `v` is `x` with the error of `k` roundings of numbers of size `S`. -/
def Err (u : ℝ) (k : ℕ) (S x v : ℝ) : Prop := |x| ≤ S ∧ |v - x| ≤ gr u k * S

section
variable {u : ℝ} {fl : ℝ → ℝ}

theorem gr_add (h1 : u < 1) (k l : ℕ) : (1 + gr u k) * (1 + gr u l) = 1 + gr u (k + l) := by
  have : (1 - u) ≠ 0 := by linarith
  unfold gr
  rw [pow_add]
  field_simp
  ring

theorem gr_zero : gr u 0 = 0 := by simp [gr]

theorem gr_mono (h0 : 0 ≤ u) (h1 : u < 1) {k l : ℕ} (h : k ≤ l) : gr u k ≤ gr u l := by
  obtain ⟨pl, -⟩ := pow_unit h0 h1 l
  have := one_div_le_one_div_of_le pl (pow_le_pow_of_le_one (by linarith : (0 : ℝ) ≤ 1 - u) (by linarith) h)
  unfold gr
  linarith

theorem gr_nonneg (h0 : 0 ≤ u) (h1 : u < 1) (k : ℕ) : 0 ≤ gr u k := by
  have := gr_mono h0 h1 (Nat.zero_le k)
  rwa [gr_zero] at this

theorem u_le_gr (h0 : 0 ≤ u) (h1 : u < 1) : u ≤ gr u 1 := by
  unfold gr
  rw [pow_one, le_sub_iff_add_le, le_div_iff₀ (by linarith)]
  nlinarith

theorem one_add_pow_le (h0 : 0 ≤ u) (h1 : u < 1) (k : ℕ) : (1 + u) ^ k ≤ 1 + gr u k := by
  induction k with
  | zero => simp [gr_zero]
  | succ k ih =>
    rw [pow_succ, ← gr_add h1 k 1]
    exact mul_le_mul ih (by linarith [u_le_gr h0 h1]) (by linarith) (by linarith [gr_nonneg h0 h1 k])

theorem gr_le (h0 : 0 ≤ u) (h1 : u < 1) {k : ℕ} (hk : k * u ≤ 1 / 2) : gr u k ≤ 2 * (k * u) := by
  obtain ⟨pk, -⟩ := pow_unit h0 h1 k
  have b := one_add_mul_le_pow (a := -u) (by linarith) k
  have b' : 1 - k * u ≤ (1 - u) ^ k := by
    have : (1 + -u) = 1 - u := by ring
    rw [this] at b
    linarith
  have ku : 0 ≤ k * u := by positivity
  unfold gr
  rw [sub_le_iff_le_add, div_le_iff₀ pk]
  nlinarith

theorem Err.exact (h : |x| ≤ S) : Err u 0 S x x := ⟨h, by simp [gr_zero]⟩

theorem Err.size {k : ℕ} {S x v : ℝ} (h : Err u k S x v) : 0 ≤ S := (abs_nonneg _).trans h.1

theorem Err.abs_le {k : ℕ} {S x v : ℝ} (h : Err u k S x v) : |v| ≤ (1 + gr u k) * S := by
  have := abs_sub_abs_le_abs_sub v x
  have := h.1; have := h.2
  linarith

theorem Err.mono (h0 : 0 ≤ u) (h1 : u < 1) {k l : ℕ} {S T x v : ℝ} (h : Err u k S x v) (hk : k ≤ l) (hS : S ≤ T) : Err u l T x v :=
  ⟨h.1.trans hS, h.2.trans (mul_le_mul (gr_mono h0 h1 hk) hS h.size (gr_nonneg h0 h1 l))⟩

theorem Err.rnd (hr : RoundsTo u fl) (h1 : u < 1) {k : ℕ} {S x v : ℝ} (h : Err u k S x v) : Err u (k + 1) S x (fl v) := by
  have h0 := u_nonneg hr
  refine ⟨h.1, ?_⟩
  have a := hr v
  have b := abs_sub_le (fl v) v x
  have c := mul_le_mul_of_nonneg_left h.abs_le h0
  have d := h.2
  have s := h.size
  have g := gr_nonneg h0 h1 k
  have e : gr u (k + 1) * S = ((1 + gr u k) * (1 + gr u 1) - 1) * S := by rw [gr_add h1]; ring
  rw [e]
  have f : u * ((1 + gr u k) * S) ≤ gr u 1 * ((1 + gr u k) * S) := mul_le_mul_of_nonneg_right (u_le_gr h0 h1) (by positivity)
  calc _ ≤ gr u 1 * ((1 + gr u k) * S) + gr u k * S := by linarith
    _ = _ := by ring

theorem Err.neg {k : ℕ} {S x v : ℝ} (h : Err u k S x v) : Err u k S (-x) (-v) := by
  refine ⟨by rw [abs_neg]; exact h.1, ?_⟩
  rw [← abs_neg]
  have : -(-v - -x) = v - x := by ring
  rw [this]
  exact h.2

theorem Err.add {k : ℕ} {S T x v y w : ℝ} (h : Err u k S x v) (h' : Err u k T y w) : Err u k (S + T) (x + y) (v + w) := by
  refine ⟨(abs_add_le _ _).trans (add_le_add h.1 h'.1), ?_⟩
  have : v + w - (x + y) = (v - x) + (w - y) := by ring
  rw [this, mul_add]
  exact (abs_add_le _ _).trans (add_le_add h.2 h'.2)

theorem Err.sub {k : ℕ} {S T x v y w : ℝ} (h : Err u k S x v) (h' : Err u k T y w) : Err u k (S + T) (x - y) (v - w) := by
  rw [sub_eq_add_neg, sub_eq_add_neg]
  exact h.add h'.neg

theorem Err.mul (h0 : 0 ≤ u) (h1 : u < 1) {k l : ℕ} {S T x v y w : ℝ} (h : Err u k S x v) (h' : Err u l T y w) : Err u (k + l) (S * T) (x * y) (v * w) := by
  refine ⟨by rw [abs_mul]; exact mul_le_mul h.1 h'.1 (abs_nonneg _) h.size, ?_⟩
  have e : v * w - x * y = v * (w - y) + (v - x) * y := by ring
  rw [e]
  refine (abs_add_le _ _).trans ?_
  rw [abs_mul, abs_mul]
  have a := mul_le_mul h.abs_le h'.2 (abs_nonneg _) (by have := gr_nonneg h0 h1 k; have := h.size; positivity)
  have b := mul_le_mul h.2 h'.1 (abs_nonneg _) (by have := gr_nonneg h0 h1 k; have := h.size; positivity)
  have g : gr u (k + l) * (S * T) = ((1 + gr u k) * (1 + gr u l) - 1) * (S * T) := by rw [gr_add h1]; ring
  rw [g]
  calc _ ≤ (1 + gr u k) * S * (gr u l * T) + gr u k * S * T := add_le_add a b
    _ = _ := by ring

theorem Fac.err (h0 : 0 ≤ u) (h1 : u < 1) {k : ℕ} {α x : ℝ} (h : Fac u k α) : Err u k |x| x (α * x) := by
  refine ⟨le_rfl, ?_⟩
  have : α * x - x = (α - 1) * x := by ring
  rw [this, abs_mul]
  exact mul_le_mul_of_nonneg_right (h.sub_one h0 h1 le_rfl) (abs_nonneg _)

theorem Near.err (h0 : 0 ≤ u) (h1 : u < 1) {k : ℕ} {x v : ℝ} (hx : 0 ≤ x) (h : Near u k x v) : Err u k x x v := by
  refine ⟨(abs_of_nonneg hx).le, ?_⟩
  rcases hx.eq_or_lt with rfl | hp
  · rw [h.zero h0 h1]; simp
  · have f : Fac u k (v / x) := ⟨by rw [le_div_iff₀ hp]; exact h.1, by rw [div_mul_eq_mul_div, div_le_one hp, mul_comm]; exact h.2⟩
    have := (f.err h0 h1 (x := x)).2
    rwa [div_mul_cancel₀ _ hp.ne', abs_of_pos hp] at this

theorem sum_abs_map_le {α : Type} (l : List α) (f : α → ℝ) : |(l.map f).sum| ≤ (l.map fun x => |f x|).sum := by
  induction l with
  | nil => simp
  | cons x l ih => simp only [List.map_cons, List.sum_cons]; exact (abs_add_le _ _).trans (by linarith)

theorem Err.sum (hr : RoundsTo u fl) (h1 : u < 1) {α : Type} {l : List α} {f g : α → ℝ} {k n : ℕ} {S a : ℝ} (ha : AnyOrder fl (l.map g) a) (hk : ∀ x ∈ l, Err u k S (f x) (g x))
    (hn : l.length ≤ n) : Err u (k + n - 1) (l.length * S) (l.map f).sum a := by
  have h0 := u_nonneg hr
  have s1 : |(l.map f).sum| ≤ l.length * S := by
    refine (sum_abs_map_le l f).trans ?_
    have := List.sum_le_card_nsmul (l.map fun x => |f x|) S (by
      intro y hy
      obtain ⟨x, hx, rfl⟩ := List.mem_map.mp hy
      exact (hk x hx).1)
    simpa using this
  have s2 : ((l.map g).map fun x => |x|).sum ≤ l.length * ((1 + gr u k) * S) := by
    rw [List.map_map]
    have := List.sum_le_card_nsmul (l.map ((fun x => |x|) ∘ g)) ((1 + gr u k) * S) (by
      intro y hy
      obtain ⟨x, hx, rfl⟩ := List.mem_map.mp hy
      exact (hk x hx).abs_le)
    simpa using this
  have s3 : |(l.map g).sum - (l.map f).sum| ≤ l.length * (gr u k * S) := by
    have e : (l.map g).sum - (l.map f).sum = (l.map fun x => g x - f x).sum := by
      clear ha hk hn s1 s2
      induction l with
      | nil => simp
      | cons x l ih => simp only [List.map_cons, List.sum_cons, ← ih]; ring
    rw [e]
    refine (sum_abs_map_le l _).trans ?_
    have := List.sum_le_card_nsmul (l.map fun x => |g x - f x|) (gr u k * S) (by
      intro y hy
      obtain ⟨x, hx, rfl⟩ := List.mem_map.mp hy
      exact (hk x hx).2)
    simpa using this
  have ln : 1 ≤ l.length := by
    have := List.length_pos_iff.mpr ha.ne_nil
    rw [List.length_map] at this
    exact this
  have s4 := ha.abs_sub hr
  rw [List.length_map] at s4
  have S0 : 0 ≤ (l.length : ℝ) * S := (abs_nonneg _).trans s1
  refine ⟨s1, ?_⟩
  have p := one_add_pow_le h0 h1 (l.length - 1)
  have g0 := gr_nonneg h0 h1 k
  have p0 : (1 : ℝ) ≤ (1 + u) ^ (l.length - 1) := one_le_pow₀ (by linarith)
  have s5 := mul_le_mul_of_nonneg_left s2 (sub_nonneg.mpr p0)
  have tri := abs_sub_le a (l.map g).sum (l.map f).sum
  have q : gr u (l.length - 1 + k) ≤ gr u (k + n - 1) := gr_mono h0 h1 (by omega)
  calc |a - (l.map f).sum| ≤ ((1 + u) ^ (l.length - 1) - 1) * (l.length * ((1 + gr u k) * S)) + l.length * (gr u k * S) := by linarith
    _ = ((1 + u) ^ (l.length - 1) * (1 + gr u k) - 1) * (l.length * S) := by ring
    _ ≤ ((1 + gr u (l.length - 1)) * (1 + gr u k) - 1) * (l.length * S) := by
        refine mul_le_mul_of_nonneg_right ?_ S0
        have := mul_le_mul_of_nonneg_right p (by linarith : 0 ≤ 1 + gr u k)
        linarith
    _ = gr u (l.length - 1 + k) * (l.length * S) := by rw [gr_add h1]; ring
    _ ≤ _ := mul_le_mul_of_nonneg_right q S0

end

end SST.Round
