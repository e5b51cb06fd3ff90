import Verif.Proofs.Cloud
import Mathlib.Algebra.Order.Floor.Ring

/-! # Helper lemmas: counting cells below a quantile -/

namespace SST.Cloud
open SST SST.Stats

variable {ι : Type} [Fintype ι]

theorem vals_length (f : ι → ℝ) : (vals f).length = Fintype.card ι := by
  unfold vals; simp

theorem vals_ne_nil [Nonempty ι] (f : ι → ℝ) : vals f ≠ [] := by
  intro h
  have := vals_length f
  rw [h] at this
  have := Fintype.card_pos (α := ι)
  simp_all

open Classical in
theorem card_le_eq_countP (f : ι → ℝ) (t : ℝ) : (Finset.univ.filter fun i => f i ≤ t).card = (vals f).countP fun (x : ℝ) => decide (x ≤ t) := by
  unfold vals
  rw [List.countP_map]
  have h1 : (Finset.univ.filter fun i => f i ≤ t).card = Multiset.countP (fun i => f i ≤ t) (Finset.univ : Finset ι).val := by
    rw [Multiset.countP_eq_card_filter]; rfl
  rw [h1, ← Multiset.coe_toList (Finset.univ : Finset ι).val, Multiset.coe_countP]
  rfl

theorem srt_perm (l : List ℝ) : (srt l).Perm l := List.perm_insertionSort _ _

open Classical in
theorem countP_srt (l : List ℝ) (t : ℝ) : l.countP (fun (x : ℝ) => decide (x ≤ t)) = (srt l).countP fun (x : ℝ) => decide (x ≤ t) :=
  ((srt_perm l).countP_eq _).symm

open Classical in
theorem countP_ge {l : List ℝ} {k : ℕ} (hk : k < l.length) {t : ℝ} (h : (srt l).getD k 0 ≤ t) :
    k + 1 ≤ (srt l).countP fun (x : ℝ) => decide (x ≤ t) := by
  have hle : (srt l).take (k + 1) <+: srt l := List.take_prefix _ _
  have h1 : ((srt l).take (k + 1)).countP (fun (x : ℝ) => decide (x ≤ t)) = k + 1 := by
    have hl : ((srt l).take (k + 1)).length = k + 1 := by rw [List.length_take, srt_length]; omega
    refine (List.countP_eq_length.2 ?_).trans hl
    intro x hx
    obtain ⟨i, hi, rfl⟩ := List.mem_iff_getElem.1 hx
    have hi' : i ≤ k := by rw [hl] at hi; omega
    have := srt_mono hi' hk
    rw [List.getElem_take]
    rw [List.getD_eq_getElem _ _ (by rw [srt_length]; omega)] at this
    simpa using this.trans h
  calc k + 1 = _ := h1.symm
    _ ≤ _ := hle.sublist.countP_le

open Classical in
theorem countP_eq {l : List ℝ} {k : ℕ} (hk : k < l.length) {t : ℝ} (h : (srt l).getD k 0 ≤ t) (h2 : k + 1 < l.length → t < (srt l).getD (k + 1) 0) :
    (srt l).countP (fun (x : ℝ) => decide (x ≤ t)) = k + 1 := by
  apply le_antisymm _ (countP_ge hk h)
  have : (srt l).countP (fun (x : ℝ) => decide (x ≤ t)) = ((srt l).take (k + 1)).countP (fun (x : ℝ) => decide (x ≤ t)) + ((srt l).drop (k + 1)).countP (fun (x : ℝ) => decide (x ≤ t)) := by
    rw [← List.countP_append, List.take_append_drop]
  rw [this]
  have hd : ((srt l).drop (k + 1)).countP (fun (x : ℝ) => decide (x ≤ t)) = 0 := by
    rw [List.countP_eq_zero]
    intro x hx
    obtain ⟨i, hi, rfl⟩ := List.mem_iff_getElem.1 hx
    rw [List.length_drop, srt_length] at hi
    have := srt_mono (l := l) (i := k + 1) (j := k + 1 + i) (by omega) (by omega)
    rw [List.getElem_drop]
    rw [List.getD_eq_getElem (n := k + 1 + i) _ _ (by rw [srt_length]; omega)] at this
    have := h2 (by omega)
    simp only [decide_eq_true_eq, not_le]
    linarith
  have ht : ((srt l).take (k + 1)).countP (fun (x : ℝ) => decide (x ≤ t)) ≤ k + 1 := by
    refine List.countP_le_length.trans ?_
    rw [List.length_take]; omega
  omega

theorem srt_strict {l : List ℝ} (hn : l.Nodup) {i j : ℕ} (hij : i < j) (hj : j < l.length) : (srt l).getD i 0 < (srt l).getD j 0 := by
  apply lt_of_le_of_ne (srt_mono hij.le hj)
  have hnd : (srt l).Nodup := (srt_perm l).nodup_iff.2 hn
  rw [List.getD_eq_getElem _ _ (by rw [srt_length]; omega), List.getD_eq_getElem _ _ (by rw [srt_length]; omega)]
  intro h
  have := (List.Nodup.getElem_inj_iff hnd).1 h
  omega

theorem vals_nodup {f : ι → ℝ} (hf : Function.Injective f) : (vals f).Nodup := by
  unfold vals
  exact (Finset.nodup_toList _).map hf

/-- Position bounds for a quantile of the field. -/
theorem pos_bounds [Nonempty ι] {q : ℝ} (h0 : 0 ≤ q) (h1 : q ≤ 1) :
    0 ≤ q * ((Fintype.card ι : ℝ) - 1) ∧ q * ((Fintype.card ι : ℝ) - 1) ≤ (Fintype.card ι : ℝ) - 1 := by
  have : (1 : ℝ) ≤ Fintype.card ι := by exact_mod_cast Fintype.card_pos (α := ι)
  exact ⟨mul_nonneg h0 (by linarith), by nlinarith⟩

open Classical in
theorem count_ge_quantile [Nonempty ι] (f : ι → ℝ) {q : ℝ} (h0 : 0 ≤ q) (h1 : q ≤ 1) {t : ℝ} (ht : quantileLin q (vals f) = some t) :
    ⌊q * ((Fintype.card ι : ℝ) - 1)⌋₊ + 1 ≤ (Finset.univ.filter fun i => f i ≤ t).card := by
  obtain ⟨p0, p1⟩ := pos_bounds (ι := ι) h0 h1
  rw [quantileLin_eq, if_neg (vals_ne_nil f), Option.some.injEq, vals_length] at ht
  have hb := interp_between (l := vals f) (vals_ne_nil f) p0 (by rw [vals_length]; exact p1)
  rw [ht] at hb
  rw [card_le_eq_countP, countP_srt]
  have hx := idx_bounds (n := Fintype.card ι) Fintype.card_pos p0 p1
  apply countP_ge
  · rw [vals_length]; rw [← Int.floor_toNat]; omega
  · rw [← Int.floor_toNat]; exact hb.1

open Classical in
theorem count_eq_quantile [Nonempty ι] {f : ι → ℝ} (hf : Function.Injective f) {q : ℝ} (h0 : 0 ≤ q) (h1 : q ≤ 1) {t : ℝ} (ht : quantileLin q (vals f) = some t) :
    (Finset.univ.filter fun i => f i ≤ t).card = ⌊q * ((Fintype.card ι : ℝ) - 1)⌋₊ + 1 := by
  obtain ⟨p0, p1⟩ := pos_bounds (ι := ι) h0 h1
  rw [quantileLin_eq, if_neg (vals_ne_nil f), Option.some.injEq, vals_length] at ht
  have hb := interp_between (l := vals f) (vals_ne_nil f) p0 (by rw [vals_length]; exact p1)
  rw [ht] at hb
  have hx := idx_bounds (n := Fintype.card ι) Fintype.card_pos p0 p1
  rw [card_le_eq_countP, countP_srt]
  apply countP_eq
  · rw [vals_length]; rw [← Int.floor_toNat]; omega
  · rw [← Int.floor_toNat]; exact hb.1
  · intro hlt
    rw [← Int.floor_toNat] at hlt ⊢
    have hs := srt_strict (vals_nodup hf) (Nat.lt_succ_self _) hlt
    rw [← ht]
    unfold interpAt
    generalize hp : q * ((Fintype.card ι : ℝ) - 1) = p at *
    rcases eq_or_ne ((⌊p⌋ : ℤ) : ℝ) p with he | he
    · have : ⌈p⌉ = ⌊p⌋ := by rw [← he]; simp
      rw [this, he]; simpa using hs
    · have hlt' : ((⌊p⌋ : ℤ) : ℝ) < p := lt_of_le_of_ne (Int.floor_le p) he
      have hc : ⌈p⌉ = ⌊p⌋ + 1 := by
        rw [Int.ceil_eq_iff]
        push_cast
        exact ⟨by linarith, (Int.lt_floor_add_one p).le⟩
      have hn : (⌊p⌋ + 1).toNat = ⌊p⌋.toNat + 1 := by
        have := Int.floor_nonneg.2 p0
        omega
      rw [hc, hn]
      have h3 := Int.lt_floor_add_one p
      nlinarith

end SST.Cloud
