import Verif.Model.RoundEdges
import Verif.Props.RoundQuantile
import Verif.Props.CloudMask
import Verif.Proofs.CloudSymm

/-!
# Property C290: broadened edges with rounding
-/

namespace SST.Round
open SST SST.Stats SST.Cloud SST.Props.CloudMask

variable {A : Arith}

/-- Mean over the window of a cell. -/
private noncomputable def win (x : ℤ → ℝ) (s j : ℕ) : ℝ := (∑ c ∈ Finset.range s, x ((j : ℤ) - (s / 2 : ℕ) + (c : ℤ))) / s

private theorem win_abs {x : ℤ → ℝ} {B : ℝ} (hx : ∀ k, |x k| ≤ B) {s : ℕ} (hs : 1 ≤ s) (j : ℕ) : |win x s j| ≤ B := by
  have s0 : (0 : ℝ) < s := by exact_mod_cast hs
  unfold win
  rw [abs_div, abs_of_pos s0, div_le_iff₀ s0]
  refine (Finset.abs_sum_le_sum_abs _ _).trans ((Finset.sum_le_sum fun c _ => hx _).trans ?_)
  rw [Finset.sum_const, Finset.card_range, nsmul_eq_mul, mul_comm]

private theorem win_sub {x y : ℤ → ℝ} {d : ℝ} (hx : ∀ k, |x k - y k| ≤ d) {s : ℕ} (hs : 1 ≤ s) (j : ℕ) : |win x s j - win y s j| ≤ d := by
  have e : win x s j - win y s j = win (fun k => x k - y k) s j := by
    unfold win
    rw [Finset.sum_sub_distrib, sub_div]
  rw [e]
  exact win_abs hx hs j

private theorem win_succ (x : ℤ → ℝ) (s j : ℕ) : win x s (j + 1) = win x s j + (x ((j : ℤ) - (s / 2 : ℕ) + (s : ℤ)) - x ((j : ℤ) - (s / 2 : ℕ))) / s := by
  unfold win
  rw [← add_div]
  congr 1
  have a := Finset.sum_range_succ (fun c : ℕ => x ((j : ℤ) - (s / 2 : ℕ) + (c : ℤ))) s
  have b := Finset.sum_range_succ' (fun c : ℕ => x ((j : ℤ) - (s / 2 : ℕ) + (c : ℤ))) s
  rw [a] at b
  simp only [Nat.cast_zero, add_zero] at b
  have c : ∑ c ∈ Finset.range s, x (((j + 1 : ℕ) : ℤ) - (s / 2 : ℕ) + (c : ℤ)) = ∑ c ∈ Finset.range s, x ((j : ℤ) - (s / 2 : ℕ) + ((c + 1 : ℕ) : ℤ)) := by
    refine Finset.sum_congr rfl fun c _ => ?_
    congr 1
    push_cast
    ring
  rw [c]
  linarith

private theorem flerr (h : FloatLike (2 ^ (-53 : ℤ)) A) (x : ℝ) : |A.fl x - x| ≤ 1e-15 * |x| :=
  (h.rounds x).trans (mul_le_mul_of_nonneg_right (by norm_num) (abs_nonneg _))

private theorem run_err (h : FloatLike (2 ^ (-53 : ℤ)) A) {x : ℤ → ℝ} {B : ℝ} (hx : ∀ k, |x k| ≤ B) {s : ℕ} (hs : 1 ≤ s) (hs' : s ≤ 300) (j : ℕ) (hj : j ≤ 10 ^ 6) :
    |runF A x s j - win x s j| ≤ (2e-12 + j * 8e-15) * B := by
  have B0 : 0 ≤ B := (abs_nonneg _).trans (hx 0)
  have s0 : (0 : ℝ) < s := by exact_mod_cast hs
  have s1 : (1 : ℝ) ≤ s := by exact_mod_cast hs
  induction j with
  | zero =>
    have ne : ((List.range s).map fun (c : ℕ) => x (-(s / 2 : ℕ) + (c : ℤ))) ≠ [] := by
      simp; omega
    have a := (h.sums _ ne).abs_sub h.rounds
    have es : ((List.range s).map fun (c : ℕ) => x (-(s / 2 : ℕ) + (c : ℤ))).sum / s = win x s 0 := by
      unfold win
      rw [Finset.sum_eq_multiset_sum, Finset.range_val, Multiset.range, Multiset.map_coe, Multiset.sum_coe]
      simp
    rw [runF, Nat.cast_zero, zero_mul, add_zero, ← es]
    have ab : (((List.range s).map fun (c : ℕ) => x (-(s / 2 : ℕ) + (c : ℤ))).map fun v => |v|).sum ≤ s * B := by
      have := List.sum_le_card_nsmul (((List.range s).map fun (c : ℕ) => x (-(s / 2 : ℕ) + (c : ℤ))).map fun v => |v|) B (by
        intro v hv
        obtain ⟨w, hw, rfl⟩ := List.mem_map.1 hv
        obtain ⟨c, -, rfl⟩ := List.mem_map.1 hw
        exact hx _)
      simpa using this
    have ws : |((List.range s).map fun (c : ℕ) => x (-(s / 2 : ℕ) + (c : ℤ))).sum / s| ≤ B := es ▸ win_abs hx hs 0
    have pw : ((1 : ℝ) + 2 ^ (-53 : ℤ)) ^ (((List.range s).map fun (c : ℕ) => x (-(s / 2 : ℕ) + (c : ℤ))).length - 1) - 1 ≤ 1e-12 := by
      have e1 : ((1 : ℝ) + 2 ^ (-53 : ℤ)) ^ (((List.range s).map fun (c : ℕ) => x (-(s / 2 : ℕ) + (c : ℤ))).length - 1) ≤ (1 + 2 ^ (-53 : ℤ)) ^ 300 :=
        pow_le_pow_right₀ (by norm_num) (by simp; omega)
      have e2 : ((1 : ℝ) + 2 ^ (-53 : ℤ)) ^ 300 ≤ (1 + 1e-15) ^ 300 := pow_le_pow_left₀ (by norm_num) (by norm_num) _
      have e3 : ((1 : ℝ) + 1e-15) ^ 300 ≤ 1 + 1e-12 := by
        rw [show (300 : ℕ) = 100 * 3 from rfl, pow_mul]
        norm_num
      have := e1.trans (e2.trans e3)
      linarith only [this]
    have nn : 0 ≤ (((List.range s).map fun (c : ℕ) => x (-(s / 2 : ℕ) + (c : ℤ))).map fun v => |v|).sum := List.sum_nonneg (by
      intro v hv
      obtain ⟨w, -, rfl⟩ := List.mem_map.1 hv
      exact abs_nonneg _)
    have a2 := a.trans (mul_le_mul_of_nonneg_right pw nn)
    generalize A.sum ((List.range s).map fun (c : ℕ) => x (-(s / 2 : ℕ) + (c : ℤ))) = S at a2
    generalize ((List.range s).map fun (c : ℕ) => x (-(s / 2 : ℕ) + (c : ℤ))).sum = T at a2 ws
    have q : |S / s - T / s| ≤ 1e-12 * B := by
      rw [← sub_div, abs_div, abs_of_pos s0, div_le_iff₀ s0]
      nlinarith
    have q2 : |S / s| ≤ 2 * B := by
      have := abs_sub_abs_le_abs_sub (S / s) (T / s)
      linarith
    have q3 := flerr h (S / s)
    have := abs_sub_le (A.fl (S / s)) (S / s) (T / s)
    linarith
  | succ j ih =>
    have ih := ih (by omega)
    have jr : (j : ℝ) ≤ 10 ^ 6 := by exact_mod_cast (by omega : j ≤ 10 ^ 6)
    have j0 : (0 : ℝ) ≤ j := Nat.cast_nonneg _
    have ws := win_abs hx hs (j + 1)
    rw [win_succ] at ws ⊢
    rw [runF]
    set D := x ((j : ℤ) - (s / 2 : ℕ) + (s : ℤ)) - x ((j : ℤ) - (s / 2 : ℕ)) with hD
    have D2 : |D| ≤ 2 * B := (abs_sub _ _).trans (by have := hx ((j : ℤ) - (s / 2 : ℕ) + (s : ℤ)); have := hx ((j : ℤ) - (s / 2 : ℕ)); linarith)
    have d1 := flerr h D
    have d2 : |A.fl D / s - D / s| ≤ 2e-15 * B := by
      rw [← sub_div, abs_div, abs_of_pos s0, div_le_iff₀ s0]
      nlinarith
    have d3 : |D / s| ≤ 2 * B := by
      rw [abs_div, abs_of_pos s0, div_le_iff₀ s0]
      nlinarith
    have d4 : |A.fl D / s| ≤ 2.1 * B := by
      have := abs_sub_abs_le_abs_sub (A.fl D / s) (D / s)
      linarith
    have d5 := flerr h (A.fl D / s)
    have d6 : |A.fl (A.fl D / s) - D / s| ≤ 4.2e-15 * B := by
      have := abs_sub_le (A.fl (A.fl D / s)) (A.fl D / s) (D / s)
      linarith
    have d7 : |runF A x s j + A.fl (A.fl D / s) - (win x s j + D / s)| ≤ (2e-12 + j * 8e-15) * B + 4.2e-15 * B := by
      have := abs_add_le (runF A x s j - win x s j) (A.fl (A.fl D / s) - D / s)
      rw [show runF A x s j - win x s j + (A.fl (A.fl D / s) - D / s) = runF A x s j + A.fl (A.fl D / s) - (win x s j + D / s) by ring] at this
      linarith
    have d8 : |runF A x s j + A.fl (A.fl D / s)| ≤ 2 * B := by
      have := abs_sub_abs_le_abs_sub (runF A x s j + A.fl (A.fl D / s)) (win x s j + D / s)
      nlinarith
    have d9 := flerr h (runF A x s j + A.fl (A.fl D / s))
    have := abs_sub_le (A.fl (runF A x s j + A.fl (A.fl D / s))) (runF A x s j + A.fl (A.fl D / s)) (win x s j + D / s)
    push_cast
    nlinarith

private theorem run_err' (h : FloatLike (2 ^ (-53 : ℤ)) A) {x : ℤ → ℝ} {B : ℝ} (hx : ∀ k, |x k| ≤ B) {s : ℕ} (hs : 1 ≤ s) (hs' : s ≤ 300) {j : ℕ} (hj : j ≤ 10 ^ 6) :
    |runF A x s j - win x s j| ≤ 1e-8 * B := by
  have B0 : 0 ≤ B := (abs_nonneg _).trans (hx 0)
  have jr : (j : ℝ) ≤ 10 ^ 6 := by exact_mod_cast hj
  have := run_err h hx hs hs' j hj
  nlinarith

private theorem edges_le (mask : ℕ → ℕ → Bool) (m n i j : ℕ) : |edges mask m n i j| ≤ 32 := by
  have e : ∀ a b : ℤ, 0 ≤ ext (maskVal mask) m n a b ∧ ext (maskVal mask) m n a b ≤ 1 := by
    intro a b
    unfold ext maskVal
    split_ifs <;> norm_num
  have sq : ∀ v : ℝ, -4 ≤ v → v ≤ 4 → v ^ 2 ≤ 16 := fun v h1 h2 => by nlinarith
  have a0 : sobel0 (maskVal mask) m n i j ^ 2 ≤ 16 := by
    apply sq <;> unfold sobel0 <;>
    linarith [
      (e ((i : ℤ) + 1) ((j : ℤ) - 1)).1, (e ((i : ℤ) + 1) ((j : ℤ) - 1)).2, (e ((i : ℤ) - 1) ((j : ℤ) - 1)).1, (e ((i : ℤ) - 1) ((j : ℤ) - 1)).2, (e ((i : ℤ) + 1) (j : ℤ)).1, (e ((i : ℤ) + 1) (j : ℤ)).2,
      (e ((i : ℤ) - 1) (j : ℤ)).1, (e ((i : ℤ) - 1) (j : ℤ)).2, (e ((i : ℤ) + 1) ((j : ℤ) + 1)).1, (e ((i : ℤ) + 1) ((j : ℤ) + 1)).2, (e ((i : ℤ) - 1) ((j : ℤ) + 1)).1, (e ((i : ℤ) - 1) ((j : ℤ) + 1)).2]
  have a1 : sobel1 (maskVal mask) m n i j ^ 2 ≤ 16 := by
    apply sq <;> unfold sobel1 <;>
    linarith [(e ((i : ℤ) + 1) ((j : ℤ) - 1)).1, (e ((i : ℤ) + 1) ((j : ℤ) - 1)).2, (e ((i : ℤ) - 1) ((j : ℤ) - 1)).1, (e ((i : ℤ) - 1) ((j : ℤ) - 1)).2, (e (i : ℤ) ((j : ℤ) + 1)).1, (e (i : ℤ) ((j : ℤ) + 1)).2,
      (e (i : ℤ) ((j : ℤ) - 1)).1, (e (i : ℤ) ((j : ℤ) - 1)).2, (e ((i : ℤ) + 1) ((j : ℤ) + 1)).1, (e ((i : ℤ) + 1) ((j : ℤ) + 1)).2, (e ((i : ℤ) - 1) ((j : ℤ) + 1)).1, (e ((i : ℤ) - 1) ((j : ℤ) + 1)).2]
  unfold edges
  rw [abs_abs, abs_of_nonneg (by positivity)]
  linarith

/-- The computed filter is close to the exact one. -/
private theorem filter_err (h : FloatLike (2 ^ (-53 : ℤ)) A) (mask : ℕ → ℕ → Bool) (m n s i j : ℕ) (hs : 1 ≤ s) (hs' : s ≤ 300) (hi : i ≤ 10 ^ 6) (hj : j ≤ 10 ^ 6) :
    |uniformFilterF A (edges mask m n) m n s i j - uniformFilter (edges mask m n) m n s i j| ≤ 7e-7 := by
  have e : uniformFilter (edges mask m n) m n s i j = win (fun k => win (fun l => edges mask m n (reflect m l) (reflect n k)) s i) s j := by
    unfold uniformFilter win
    rw [if_neg (by omega), cells_sum s fun a b => ext (edges mask m n) m n ((i : ℤ) - (s / 2 : ℕ) + a) ((j : ℤ) - (s / 2 : ℕ) + b), Finset.sum_comm, ← Finset.sum_div, div_div, ← pow_two]
    rfl
  rw [e]
  have p1 : ∀ k, |runF A (fun l => edges mask m n (reflect m l) (reflect n k)) s i - win (fun l => edges mask m n (reflect m l) (reflect n k)) s i| ≤ 32e-8 := by
    intro k
    have := run_err' h (x := fun l => edges mask m n (reflect m l) (reflect n k)) (B := 32) (fun l => edges_le _ _ _ _ _) hs hs' hi
    norm_num at this ⊢
    exact this
  have p2 : ∀ k, |runF A (fun l => edges mask m n (reflect m l) (reflect n k)) s i| ≤ 33 := by
    intro k
    have w := win_abs (x := fun l => edges mask m n (reflect m l) (reflect n k)) (B := 32) (fun l => edges_le _ _ _ _ _) hs i
    have := abs_sub_abs_le_abs_sub (runF A (fun l => edges mask m n (reflect m l) (reflect n k)) s i) (win (fun l => edges mask m n (reflect m l) (reflect n k)) s i)
    have := p1 k
    linarith
  have q1 := run_err' h p2 hs hs' hj
  have q2 := win_sub p1 hs j
  unfold uniformFilterF
  have := abs_sub_le (runF A (fun k => runF A (fun l => edges mask m n (reflect m l) (reflect n k)) s i) s j) (win (fun k => runF A (fun l => edges mask m n (reflect m l) (reflect n k)) s i) s j)
    (win (fun k => win (fun l => edges mask m n (reflect m l) (reflect n k)) s i) s j)
  linarith

/-- The computed edges after the small values are set to 0 are positive exactly where the window holds an edge. -/
private theorem smoothedF_pos (h : FloatLike (2 ^ (-53 : ℤ)) A) (mask : ℕ → ℕ → Bool) (m n s i j : ℕ) (hs : 1 ≤ s) (hs' : s ≤ 300) (hi : i ≤ 10 ^ 6) (hj : j ≤ 10 ^ 6) :
    0 ≤ smoothedF A mask m n s i j ∧ (0 < smoothedF A mask m n s i j ↔
      ∃ a b, a < s ∧ b < s ∧ 0 < edges mask m n (reflect m ((i : ℤ) - (s / 2 : ℕ) + a)) (reflect n ((j : ℤ) - (s / 2 : ℕ) + b))) := by
  have t := flerr h 1e-5
  rw [abs_of_pos (show (0 : ℝ) < 1e-5 by norm_num)] at t
  obtain ⟨t1, t2⟩ := abs_le.1 t
  have t3 : 9e-6 ≤ A.fl 1e-5 := by norm_num at t1 ⊢; linarith
  have t4 : A.fl 1e-5 ≤ 1.01e-5 := by norm_num at t2 ⊢; linarith
  have fe := abs_le.1 (filter_err h mask m n s i j hs hs' hi hj)
  have hsp : (0 : ℝ) < (s : ℝ) ^ 2 := by positivity
  have hs2 : (s : ℝ) ^ 2 ≤ 90000 := by
    have h2' : (s : ℝ) ≤ 300 := by exact_mod_cast hs'
    have h1' : (0 : ℝ) ≤ s := Nat.cast_nonneg _
    nlinarith
  by_cases hc : ∃ a b, a < s ∧ b < s ∧ 0 < edges mask m n (reflect m ((i : ℤ) - (s / 2 : ℕ) + a)) (reflect n ((j : ℤ) - (s / 2 : ℕ) + b))
  · have hu : 1.1e-5 ≤ uniformFilter (edges mask m n) m n s i j := by
      obtain ⟨a, b, ha, hb, he⟩ := hc
      have hsum : 1 ≤ ((cells s s).map fun c => ext (edges mask m n) m n ((i : ℤ) - (s / 2 : ℕ) + c.1) ((j : ℤ) - (s / 2 : ℕ) + c.2)).sum := by
        refine (edges_ge_one he).trans ?_
        apply List.single_le_sum
        · intro x hx
          obtain ⟨c, _, rfl⟩ := List.mem_map.1 hx
          exact edges_nonneg _ _ _ _ _
        · exact List.mem_map.2 ⟨(a, b), mem_cells.2 ⟨ha, hb⟩, rfl⟩
      unfold uniformFilter
      rw [if_neg (by omega), le_div_iff₀ hsp]
      refine le_trans ?_ hsum
      nlinarith
    have hb : 1.02e-5 ≤ uniformFilterF A (edges mask m n) m n s i j := by linarith [fe.1]
    unfold smoothedF
    rw [if_neg (by linarith)]
    exact ⟨by linarith, fun _ => hc, fun _ => by linarith⟩
  · have hu : uniformFilter (edges mask m n) m n s i j = 0 := by
      push Not at hc
      unfold uniformFilter
      rw [if_neg (by omega), div_eq_zero_iff]
      left
      apply List.sum_eq_zero
      intro x hx
      obtain ⟨⟨a, b⟩, hab, rfl⟩ := List.mem_map.1 hx
      rw [mem_cells] at hab
      exact le_antisymm (hc a b hab.1 hab.2) (edges_nonneg _ _ _ _ _)
    rw [hu, sub_zero] at fe
    unfold smoothedF
    rw [if_pos (by linarith [fe.2])]
    exact ⟨le_rfl, fun hh => absurd hh (lt_irrefl _), fun hh => absurd hh hc⟩

/-- C290: with the default threshold, filter sizes of 2 to 300 and up to a million cells in each direction, the mask of the
broadened edges computed with rounding is the one of exact arithmetic: exactly the cells whose window holds an edge cell. -/
theorem C290_broadened (h : FloatLike (2 ^ (-53 : ℤ)) A) (mask : ℕ → ℕ → Bool) (m n s i j : ℕ) (hs : 2 ≤ s) (hs' : s ≤ 300) (hm : m ≤ 10 ^ 6) (hn : n ≤ 10 ^ 6) (hi : i < m) (hj : j < n) :
    (smoothedBinaryF A mask m n s 0 i j ↔ smoothedBinary mask m n s 0 i j) ∧
    (smoothedBinaryF A mask m n s 0 i j ↔
      ∃ a b, a < s ∧ b < s ∧ 0 < edges mask m n (reflect m ((i : ℤ) - (s / 2 : ℕ) + a)) (reflect n ((j : ℤ) - (s / 2 : ℕ) + b))) := by
  rw [C67_broadened mask m n s i j (by omega) (by omega) hi hj, and_self]
  obtain ⟨mx, hmx⟩ := fmax_exists (smoothedF A mask m n s) (by omega : 0 < m) (by omega : 0 < n)
  obtain ⟨⟨i', j', hi', hj', he⟩, hle⟩ := fmax_some.1 hmx
  obtain ⟨nn, iff⟩ := smoothedF_pos h mask m n s i j (by omega) hs' (by omega) (by omega)
  have mx0 : 0 ≤ mx := he ▸ (smoothedF_pos h mask m n s i' j' (by omega) hs' (by omega) (by omega)).1
  rw [← iff]
  unfold smoothedBinaryF
  rw [hmx]
  simp only
  have hij := hle i j hi hj
  constructor
  · rintro ⟨hne, hp⟩
    refine lt_of_le_of_ne nn fun h0 => ?_
    have z := flerr h 0
    rw [← h0, zero_div] at hp
    simp at z
    linarith
  · intro hp
    have mp : 0 < mx := hp.trans_le hij
    refine ⟨mp.ne', ?_⟩
    have d := div_pos hp mp
    have r := flerr h (smoothedF A mask m n s i j / mx)
    rw [abs_of_pos d] at r
    have := (abs_le.1 r).1
    nlinarith

/-- The hypotheses hold in a concrete case: float64, the default size 3, a field of 1000 × 1000 cells. -/
example : FloatLike (2 ^ (-53 : ℤ)) ⟨even53, sumEven⟩ ∧ 2 ≤ 3 ∧ 3 ≤ 300 ∧ 1000 ≤ 10 ^ 6 ∧ 500 < 1000 := ⟨floatEven, by norm_num, by norm_num, by norm_num, by norm_num⟩

end SST.Round
