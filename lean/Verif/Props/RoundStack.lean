import Verif.Model.RoundStack
import Verif.Props.RoundQuantile
import Verif.Proofs.CloudMask
import Verif.Proofs.CloudScale

/-!
# Property C289: stacked random fields with rounding
-/

namespace SST.Round
open SST SST.Stats SST.Cloud

variable {u : ℝ} {A : Arith} {ι : Type} [Fintype ι]

private theorem stack_near (h : FloatLike u A) (l : List (ℝ × ℝ)) (hl : ∀ p ∈ l, 0 ≤ p.1 * p.2) : ∀ (k : ℕ) (S acc : ℝ), 1 ≤ k → 0 ≤ S → Near u k S acc →
    Near u (k + l.length) (S + (l.map fun p => p.1 * p.2).sum) (l.foldl (fun acc p => A.fl (acc + A.fl (p.1 * p.2))) acc) := by
  have h0 := u_nonneg h.rounds
  induction l with
  | nil => intro k S acc _ _ hs; simpa using hs
  | cons p l ih =>
    intro k S acc hk hS hs
    have p0 := hl p (by simp)
    have a := (near_fl h.rounds h.lt_one p0).mono h0 h.lt_one hk p0
    have b := (hs.add a).rnd h.rounds h.lt_one (add_nonneg hS p0)
    have := ih (fun q hq => hl q (by simp [hq])) (k + 1) (S + p.1 * p.2) _ (by omega) (add_nonneg hS p0) b
    rw [List.map_cons, List.sum_cons, List.foldl_cons, List.length_cons, ← add_assoc S, show k + (l.length + 1) = k + 1 + l.length by omega]
    exact this

/-- C289: without normalization, for layers and weights of at least 0, every cell is at least 0 and within one rounding more than
there are scales of the weighted sum of the layers. -/
theorem C289_sum (h : FloatLike u A) (layers : List (ι → ℝ)) (weights : List ℝ) (hlen : weights.length = layers.length) (hx : ∀ g ∈ layers, ∀ i, 0 ≤ g i) (hw : ∀ w ∈ weights, 0 ≤ w) :
    ∃ out, stackFieldF A layers weights false = .ok out ∧
      ∀ i, 0 ≤ out i ∧ Near u (layers.length + 1) ((layers.zip weights).map fun p => p.1 i * p.2).sum (out i) := by
  refine ⟨stackSumF A layers weights, by simp [stackFieldF, hlen], fun i => ?_⟩
  have pos : ∀ p ∈ (layers.zip weights).map fun p => (p.1 i, p.2), 0 ≤ p.1 * p.2 := by
    intro p hp
    obtain ⟨q, hq, rfl⟩ := List.mem_map.1 hp
    exact mul_nonneg (hx _ (List.of_mem_zip hq).1 i) (hw _ (List.of_mem_zip hq).2)
  have n := stack_near h _ pos 1 0 0 le_rfl le_rfl (by simp [Near])
  rw [List.foldl_map, List.map_map, zero_add, List.length_map, List.length_zip, hlen, min_self, add_comm 1] at n
  have s0 : 0 ≤ ((layers.zip weights).map fun p => p.1 i * p.2).sum := List.sum_nonneg (by
    intro x hx'
    obtain ⟨q, hq, rfl⟩ := List.mem_map.1 hx'
    exact pos (q.1 i, q.2) (List.mem_map.2 ⟨q, hq, rfl⟩))
  exact ⟨n.nonneg h.lt_one s0, n⟩

private theorem ext_max {f : ι → ℝ} {m : ℝ} (h1 : ∀ i, f i ≤ m) (h2 : ∃ i, f i = m) : omax ((vals f).map some) = some m := by
  rw [omax_eq_some, filterMap_map_some]
  obtain ⟨i, hi⟩ := h2
  refine ⟨hi ▸ vals_mem f i, ?_⟩
  intro w hw
  obtain ⟨j, rfl⟩ := mem_vals hw
  exact h1 j

private theorem has_max [Nonempty ι] (f : ι → ℝ) : ∃ m, (∀ i, f i ≤ m) ∧ ∃ i, f i = m := by
  obtain ⟨i, hi⟩ := Finite.exists_max f
  exact ⟨f i, hi, i, rfl⟩

/-- C289: with normalization a field of which two cells differ always passes the assertions: the lowest cells become exactly 0, the
highest exactly 1, all others lie between, and a higher cell does not become lower. A constant field fails. -/
theorem C289_normalized (h : FloatLike u A) (hk : KeepsIntegers A.fl) [Nonempty ι] (layers : List (ι → ℝ)) (weights : List ℝ) (raw : ι → ℝ) (hraw : stackFieldF A layers weights false = .ok raw) :
    ((∀ i j, raw i = raw j) → stackFieldF A layers weights true = .error .assertionError) ∧
    ((∃ i j, raw i ≠ raw j) → ∃ out, stackFieldF A layers weights true = .ok out ∧ (∀ i, 0 ≤ out i ∧ out i ≤ 1) ∧ (∀ i j, raw i ≤ raw j → out i ≤ out j) ∧
      (∀ i, (∀ j, raw i ≤ raw j) → out i = 0) ∧ (∀ i, (∀ j, raw j ≤ raw i) → out i = 1)) := by
  have hlen : weights.length = layers.length := by
    by_contra hne
    simp [stackFieldF, hne] at hraw
  have e : stackFieldF A layers weights true = normalizeF A raw := by
    simp only [stackFieldF, hlen, ne_eq, not_true_eq_false, if_false, Bool.false_eq_true, Except.ok.injEq] at hraw
    simp [stackFieldF, hlen, hraw]
  rw [e]
  have z : A.fl 0 = 0 := by simpa using hk.int 0 (by norm_num)
  have o : A.fl 1 = 1 := by simpa using hk.int 1 (by norm_num)
  obtain ⟨nl, hnl, b, hb⟩ := has_max fun i => -raw i
  obtain ⟨hi, hhi, a, ha⟩ := has_max raw
  have hlo : ∀ i, raw b ≤ raw i := fun i => by have := hnl i; linarith
  have hb' : -nl = raw b := by linarith
  have gm : omax ((vals fun i => A.fl (raw i - raw b)).map some) = some (A.fl (hi - raw b)) :=
    ext_max (fun i => hk.mono (by have := hhi i; linarith)) ⟨a, by rw [ha]⟩
  have en : normalizeF A raw = if A.fl (hi - raw b) = 0 then .error .assertionError else
      if (omax ((vals fun i => -A.fl (A.fl (raw i - raw b) / A.fl (hi - raw b))).map some)).map (fun (v : ℝ) => -v) = some 0 ∧
        omax ((vals fun i => A.fl (A.fl (raw i - raw b) / A.fl (hi - raw b))).map some) = some 1 then .ok fun i => A.fl (A.fl (raw i - raw b) / A.fl (hi - raw b)) else .error .assertionError := by
    unfold normalizeF
    rw [ext_max hnl ⟨b, hb⟩]
    simp only [Option.map_some, hb', gm]
  rw [en]
  constructor
  · intro hc
    rw [if_pos]
    rw [← ha, hc a b, sub_self, z]
  · rintro ⟨i, j, hij⟩
    have hlt : 0 < hi - raw b := by
      rcases lt_or_gt_of_ne hij with s | s
      · have := hlo i; have := hhi j; linarith
      · have := hlo j; have := hhi i; linarith
    have hp : 0 < A.fl (hi - raw b) := by
      have r := h.rounds (hi - raw b)
      rw [abs_of_pos hlt] at r
      have := (abs_le.1 r).1
      have := h.lt_one
      nlinarith
    have mono : ∀ i j, raw i ≤ raw j → A.fl (A.fl (raw i - raw b) / A.fl (hi - raw b)) ≤ A.fl (A.fl (raw j - raw b) / A.fl (hi - raw b)) :=
      fun i j hij => hk.mono (div_le_div_of_nonneg_right (hk.mono (by linarith)) hp.le)
    have zb : A.fl (A.fl (raw b - raw b) / A.fl (hi - raw b)) = 0 := by rw [sub_self, z, zero_div, z]
    have oa : A.fl (A.fl (raw a - raw b) / A.fl (hi - raw b)) = 1 := by rw [ha, div_self hp.ne', o]
    have ge : ∀ i, 0 ≤ A.fl (A.fl (raw i - raw b) / A.fl (hi - raw b)) := fun i => zb ▸ mono b i (hlo i)
    have le : ∀ i, A.fl (A.fl (raw i - raw b) / A.fl (hi - raw b)) ≤ 1 := fun i => oa ▸ mono i a (ha ▸ hhi i)
    have m1 : omax ((vals fun i => -A.fl (A.fl (raw i - raw b) / A.fl (hi - raw b))).map some) = some 0 := ext_max (fun i => by have := ge i; linarith) ⟨b, by rw [zb, neg_zero]⟩
    have m2 : omax ((vals fun i => A.fl (A.fl (raw i - raw b) / A.fl (hi - raw b))).map some) = some 1 := ext_max le ⟨a, oa⟩
    rw [if_neg hp.ne', if_pos ⟨by rw [m1, Option.map_some, neg_zero], m2⟩]
    refine ⟨_, rfl, fun i => ⟨ge i, le i⟩, mono, ?_, ?_⟩
    · intro i hmin
      exact le_antisymm (zb ▸ mono i b (hmin b)) (ge i)
    · intro i hmax
      exact le_antisymm (le i) (oa ▸ mono a i (hmax a))

/-- The hypotheses hold in a concrete case: float64, two cells, one layer with the values 0 and 1, weight 1. -/
example : FloatLike (2 ^ (-53 : ℤ)) ⟨even53, sumEven⟩ ∧ KeepsIntegers even53 ∧ ∃ raw, stackFieldF ⟨even53, sumEven⟩ [fun i : Fin 2 => ((i : ℕ) : ℝ)] [1] false = .ok raw ∧ ∃ i j, raw i ≠ raw j := by
  have e0 : even53 0 = 0 := by simpa using even53_int 0 (by norm_num)
  have e1 : even53 1 = 1 := by simpa using even53_int 1 (by norm_num)
  refine ⟨floatEven, keepsEven, stackSumF ⟨even53, sumEven⟩ [fun i : Fin 2 => ((i : ℕ) : ℝ)] [1], by simp [stackFieldF], 0, 1, ?_⟩
  simp [stackSumF, e0, e1]

end SST.Round
