import Verif.Proofs.CloudMask
import Mathlib.Algebra.BigOperators.Field

/-! # Helper lemmas: scaling of the cloud field -/

namespace SST.Cloud
open SST SST.Stats

variable {ι : Type} [Fintype ι]

theorem vals_mem (f : ι → ℝ) (i : ι) : f i ∈ vals f := List.mem_map.2 ⟨i, by simp, rfl⟩

theorem mem_vals {f : ι → ℝ} {x : ℝ} (h : x ∈ vals f) : ∃ i, f i = x := by
  obtain ⟨i, _, rfl⟩ := List.mem_map.1 h
  exact ⟨i, rfl⟩

theorem filterMap_map_some (l : List ℝ) : (l.map some).filterMap id = l := by
  induction l with
  | nil => rfl
  | cons a l ih => simp

/-- What `_scale_field_lave` does, with its branches spelled out. -/
theorem lave_inv {f : ι → ℝ} {clear edge : ι → Bool} {ktmean ktmax kt1 mq : ℝ} {g : ι → Option ℝ}
    (h : scaleLave f clear edge ktmean ktmax kt1 mq = .ok g) :
    ∃ fm lo hi : ℝ, fm ≠ 0 ∧ quantileLin mq (valsOn f fun i => clear i = false) = some fm ∧
      (∀ i, lo ≤ clouds3 f fm kt1 i ∧ clouds3 f fm kt1 i ≤ hi) ∧ (∃ i, clouds3 f fm kt1 i = lo) ∧ (∃ i, clouds3 f fm kt1 i = hi) ∧
      g = fun i => if clear i then some 1 else if edge i then laveCe (clouds3 f fm kt1) lo hi ktmax i else
        match (osum (open Classical in Finset.univ.filter fun i => edge i = true ∧ clear i = false) (laveCe (clouds3 f fm kt1) lo hi ktmax)).map fun (e : ℝ) =>
          (Fintype.card ι : ℝ) * ktmean - (count fun i => clear i = true : ℕ) - e with
        | none => some (clouds3 f fm kt1 i)
        | some d => if 0 < d then (if sumOn (clouds3 f fm kt1) (fun i => clear i = false ∧ edge i = false) / (count fun i => clear i = false ∧ edge i = false : ℕ) = 0 then none
            else some (d / (count fun i => clear i = false ∧ edge i = false : ℕ) / (sumOn (clouds3 f fm kt1) (fun i => clear i = false ∧ edge i = false) / (count fun i => clear i = false ∧ edge i = false : ℕ)) * clouds3 f fm kt1 i))
          else some (clouds3 f fm kt1 i) := by
  unfold scaleLave at h
  cases hq : quantileLin mq (valsOn f fun i => clear i = false) with
  | none => rw [hq] at h; simp at h
  | some fm =>
    rw [hq] at h
    simp only at h
    by_cases h0 : fm = 0
    · rw [if_pos h0] at h; simp at h
    · rw [if_neg h0] at h
      cases hmx : omax ((vals (clouds3 f fm kt1)).map some) with
      | none => rw [hmx] at h; simp at h
      | some hi =>
        cases hmn : omax ((vals fun i => -clouds3 f fm kt1 i).map some) with
        | none => rw [hmx, hmn] at h; simp at h
        | some lo' =>
          rw [hmx, hmn] at h
          simp only [Option.map_some] at h
          rw [Except.ok.injEq] at h
          rw [omax_eq_some, filterMap_map_some] at hmx hmn
          obtain ⟨a, ha⟩ := mem_vals hmx.1
          obtain ⟨b, hb⟩ := mem_vals hmn.1
          refine ⟨fm, -lo', hi, h0, rfl, fun i => ⟨?_, hmx.2 _ (vals_mem _ i)⟩, ⟨b, by linarith⟩, ⟨a, ha⟩, h.symm⟩
          have := hmn.2 _ (vals_mem _ i)
          linarith

theorem clouds3_mem (f : ι → ℝ) (fm kt1 : ℝ) (i : ι) : 0 ≤ clouds3 f fm kt1 i ∧ clouds3 f fm kt1 i ≤ 1 :=
  ⟨le_max_left _ _, max_le zero_le_one (min_le_left _ _)⟩

theorem laveCe_mem {c3 : ι → ℝ} {lo hi ktmax : ℝ} {i : ι} (h0 : lo ≤ c3 i) (h1 : c3 i ≤ hi) (hk : 1 ≤ ktmax) {v : ℝ} (h : laveCe c3 lo hi ktmax i = some v) :
    1 ≤ v ∧ v ≤ ktmax := by
  unfold laveCe at h
  split_ifs at h with he
  rw [Option.some.injEq] at h
  subst h
  have hlt : lo < hi := lt_of_le_of_ne (h0.trans h1) (Ne.symm he)
  have a0 : 0 ≤ (c3 i - lo) / (hi - lo) := div_nonneg (by linarith) (by linarith)
  have a1 : (c3 i - lo) / (hi - lo) ≤ 1 := (div_le_one (by linarith)).2 (by linarith)
  constructor
  · nlinarith
  · nlinarith

open Classical in
/-- Splitting a total over clear, edge and cloud cells. -/
theorem sum_split (clear edge : ι → Bool) (v : ι → ℝ) :
    ∑ i, v i = (∑ i ∈ Finset.univ.filter fun i => clear i = true ∨ edge i = true, v i) + ∑ i ∈ Finset.univ.filter fun i => clear i = false ∧ edge i = false, v i := by
  rw [← Finset.sum_filter_add_sum_filter_not Finset.univ (fun i => clear i = true ∨ edge i = true)]
  congr 1
  apply Finset.sum_congr
  · ext i; simp
  · intros; rfl

open Classical in
theorem sum_split2 (clear edge : ι → Bool) (v : ι → ℝ) (hc : ∀ i, clear i = true → v i = 1) :
    (∑ i ∈ Finset.univ.filter fun i => clear i = true ∨ edge i = true, v i) =
      (count fun i => clear i = true : ℕ) + ∑ i ∈ Finset.univ.filter fun i => edge i = true ∧ clear i = false, v i := by
  have : (Finset.univ.filter fun i => clear i = true ∨ edge i = true) = (Finset.univ.filter fun i => clear i = true) ∪ Finset.univ.filter fun i => edge i = true ∧ clear i = false := by
    ext i
    simp only [Finset.mem_filter, Finset.mem_univ, true_and, Finset.mem_union]
    cases clear i <;> simp
  rw [this, Finset.sum_union]
  · congr 1
    rw [Finset.sum_congr rfl (g := fun _ => (1 : ℝ))]
    · simp only [Finset.sum_const, nsmul_eq_mul, mul_one]; unfold count; norm_cast; congr
    · intro i hi
      exact hc i (Finset.mem_filter.1 hi).2
  · rw [Finset.disjoint_left]
    intro i h1 h2
    have a := (Finset.mem_filter.1 h1).2
    have b := (Finset.mem_filter.1 h2).2.2
    rw [a] at b
    simp at b

theorem count_pos {p : ι → Prop} (h : ∃ i, p i) : 0 < count p := by
  classical
  obtain ⟨i, hi⟩ := h
  unfold count
  exact Finset.card_pos.2 ⟨i, by simpa using hi⟩

/-! ## Values on a set of cells -/

theorem valsOn_perm (f : ι → ℝ) (p : ι → Prop) {s : List ι} (hs : s.Nodup) (hp : ∀ i, i ∈ s ↔ p i) : (valsOn f p).Perm (s.map f) := by
  classical
  unfold valsOn
  apply List.Perm.map
  rw [List.perm_ext_iff_of_nodup (Finset.nodup_toList _) hs]
  intro i
  rw [hp, Finset.mem_toList]
  simp

theorem srt_eq_of_perm {l s : List ℝ} (h : l.Perm s) (hs : s.Pairwise (· ≤ ·)) : srt l = s := by
  apply List.Perm.eq_of_pairwise (le := (· ≤ ·)) _ (List.pairwise_insertionSort _ _) hs ((srt_perm l).trans h)
  intro a b _ _ h1 h2
  exact le_antisymm h1 h2

/-- Quantile of the values on listed cells in increasing order. -/
theorem quantile_listed (f : ι → ℝ) (p : ι → Prop) {s : List ι} (hs : s.Nodup) (hp : ∀ i, i ∈ s ↔ p i) (hne : s ≠ []) (hsort : (s.map f).Pairwise (· ≤ ·)) (q : ℝ) :
    quantileLin q (valsOn f p) = some ((s.map f).getD ⌊q * ((s.length : ℝ) - 1)⌋.toNat 0 +
      ((s.map f).getD ⌈q * ((s.length : ℝ) - 1)⌉.toNat 0 - (s.map f).getD ⌊q * ((s.length : ℝ) - 1)⌋.toNat 0) * (q * ((s.length : ℝ) - 1) - ⌊q * ((s.length : ℝ) - 1)⌋)) := by
  have hperm := valsOn_perm f p hs hp
  have hl : (valsOn f p).length = s.length := by rw [hperm.length_eq, List.length_map]
  have hne' : valsOn f p ≠ [] := by
    intro h
    rw [h] at hl
    exact hne (List.length_eq_zero_iff.1 hl.symm)
  rw [quantileLin_eq, if_neg hne', hl]
  unfold interpAt
  rw [srt_eq_of_perm hperm hsort]

/-! ## Basic scaling -/

/-- What `_scale_field_basic` does, with its branches spelled out. -/
theorem basic_inv {f : ι → ℝ} {clear edge : ι → Bool} {ktmean ktmax kt1 q : ℝ} {flip : Bool} {cs : Option ℝ} {g : ι → ℝ} {w : Bool}
    (h : scaleBasic f clear edge ktmean ktmax kt1 q flip cs = .ok (g, w)) :
    ∃ lo hi : ℝ, hi ≠ lo ∧ quantileLin q (valsOn f fun i => clear i = false) = some hi ∧ quantileLin (1 - q) (valsOn f fun i => clear i = false) = some lo ∧
      (∀ i, clear i = true → g i = clearVal cs (cloudsFr f lo hi flip i)) ∧
      (∀ i, clear i = false → edge i = true → g i = cloudsFr f lo hi flip i * (ktmax - 1) + 1) ∧
      (w = true → ∀ i, clear i = false → edge i = false → g i = cloudsFr f lo hi flip i * (1 - kt1) + kt1) ∧
      (w = false → ∃ tgt : ℝ, 0 < tgt ∧ tgt < sumOn (cloudsFr f lo hi flip) (fun i => clear i = false ∧ edge i = false) ∧
        tgt = (Fintype.card ι : ℝ) * ktmean - (∑ i ∈ (open Classical in Finset.univ.filter fun i => clear i = true ∨ edge i = true), g i) - kt1 * (count fun i => clear i = false ∧ edge i = false : ℕ) ∧
        ∀ i, clear i = false → edge i = false → g i = cloudsFr f lo hi flip i * tgt / sumOn (cloudsFr f lo hi flip) (fun i => clear i = false ∧ edge i = false) + kt1) := by
  classical
  unfold scaleBasic at h
  cases hq : quantileLin q (valsOn f fun i => clear i = false) with
  | none => rw [hq] at h; simp at h
  | some hi =>
    cases hq2 : quantileLin (1 - q) (valsOn f fun i => clear i = false) with
    | none => rw [hq, hq2] at h; simp at h
    | some lo =>
      rw [hq, hq2] at h
      simp only at h
      by_cases he : hi = lo
      · rw [if_pos he] at h; simp at h
      · rw [if_neg he] at h
        generalize hbase : basicBase (cloudsFr f lo hi flip) clear edge ktmax cs = base at h
        have hb : ∀ i, base i = if clear i = true then clearVal cs (cloudsFr f lo hi flip i) else if edge i = true then cloudsFr f lo hi flip i * (ktmax - 1) + 1 else 0 :=
          fun i => by rw [← hbase]; rfl
        refine ⟨lo, hi, he, rfl, rfl, ?_⟩
        split_ifs at h with hc
        · rw [Except.ok.injEq, Prod.mk.injEq] at h
          obtain ⟨rfl, rfl⟩ := h
          have hg1 : ∀ i, (clear i = true ∨ edge i = true) → (if clear i = false ∧ edge i = false then cloudsFr f lo hi flip i * ((Fintype.card ι : ℝ) * ktmean - (∑ i, base i) - kt1 * (count fun i => clear i = false ∧ edge i = false : ℕ)) / sumOn (cloudsFr f lo hi flip) (fun i => clear i = false ∧ edge i = false) + kt1 else base i) = base i := by
            intro i hi'
            rw [if_neg]
            rintro ⟨a, b⟩
            rw [a, b] at hi'
            simp at hi'
          refine ⟨?_, ?_, by simp, ?_⟩
          · intro i hi'
            exact (hg1 i (Or.inl hi')).trans (by rw [hb, if_pos hi'])
          · intro i h1 h2
            exact (hg1 i (Or.inr h2)).trans (by rw [hb, if_neg (by simp [h1]), if_pos h2])
          · intro _
            have hsum : ∑ i, base i = ∑ i ∈ Finset.univ.filter (fun i => clear i = true ∨ edge i = true), base i := by
              rw [sum_split clear edge base]
              rw [Finset.sum_eq_zero (s := Finset.univ.filter fun i => clear i = false ∧ edge i = false), add_zero]
              intro i hi'
              have := (Finset.mem_filter.1 hi').2
              rw [hb, if_neg (by simp [this.1]), if_neg (by simp [this.2])]
            refine ⟨_, hc.1, hc.2.1, ?_, ?_⟩
            · have hs2 := Finset.sum_congr (rfl : (Finset.univ.filter fun i => clear i = true ∨ edge i = true) = _) (fun i hi' => hg1 i (Finset.mem_filter.1 hi').2)
              have e : ∀ a b c d : ℝ, a = b → c - a - d = c - b - d := by intros; subst_vars; rfl
              apply e
              rw [hsum]
              rw [hsum] at hs2
              exact hs2.symm
            · intro i h1 h2
              exact if_pos ⟨h1, h2⟩
        · rw [Except.ok.injEq, Prod.mk.injEq] at h
          obtain ⟨rfl, rfl⟩ := h
          refine ⟨?_, ?_, ?_, by simp⟩
          · intro i hi'
            refine (if_neg (by simp [hi'])).trans ?_
            rw [hb, if_pos hi']
          · intro i h1 h2
            refine (if_neg (by simp [h2])).trans ?_
            rw [hb, if_neg (by simp [h1]), if_pos h2]
          · intro _ i h1 h2
            exact if_pos ⟨h1, h2⟩

theorem cloudsFr_mem {f : ι → ℝ} {lo hi : ℝ} (hlt : lo < hi) {flip : Bool} {i : ι} (h0 : 2 * lo - hi ≤ f i) (h1 : f i ≤ 3 * hi - 2 * lo) :
    0 ≤ cloudsFr f lo hi flip i ∧ cloudsFr f lo hi flip i ≤ 1 := by
  have hd : 0 < hi - lo := by linarith
  have a0 : -1 ≤ (f i - lo) / (hi - lo) := by rw [le_div_iff₀ hd]; linarith
  have a1 : (f i - lo) / (hi - lo) ≤ 3 := by rw [div_le_iff₀ hd]; linarith
  unfold cloudsFr
  simp only
  split_ifs <;> constructor <;> linarith

end SST.Cloud
