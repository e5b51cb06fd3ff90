import Verif.Model.RoundCloudfield
import Verif.Props.RoundStack
import Verif.Props.RoundMask
import Verif.Props.RoundLave
import Verif.Props.RoundBasic
import Verif.Props.RoundEdges

/-!
# Property C291: the generator of cloud fields with rounding
-/

namespace SST.Round
open SST SST.Stats SST.Cloud

variable {A : Arith}

open Classical in
/-- C291: let the two stacked fields consist of floats, the first of positive ones and the second of distinct ones, and at least 4001
cells be requested clear and at least 4 cloudy. Then the generator with the original scaling gives no error. The number of clear cells
is within 3 of the requested one, they are the cells where the second field is lowest, and exactly 1 in the result. All other cells
that are edges of the clear region are NaN or lie in `[1, ktmax]`, and all remaining ones are NaN or at least 0. -/
theorem C291_original (h : FloatLike (2 ^ (-53 : ℤ)) A) (hk : KeepsIntegers A.fl) {m n : ℕ} (hmn : m * n ≤ 2 ^ 53) (L1 L2 : List (Fin m × Fin n → ℝ)) (weights : List ℝ) (cf cm : Fin m × Fin n → ℝ)
    (e1 : stackFieldF A L1 weights false = .ok cf) (e2 : stackFieldF A L2 weights false = .ok cm) (p1 : ∀ p, 0 < cf p) (v1 : ∀ p, A.fl (cf p) = cf p) (v2 : ∀ p, A.fl (cm p) = cm p)
    (inj : Function.Injective cm) (q ktmean ktmax kt1 : ℝ) (es : ℕ) (q1 : 4001 ≤ q * ((m * n : ℕ) : ℝ)) (q2 : q * ((m * n : ℕ) : ℝ) ≤ ((m * n : ℕ) : ℝ) - 4) (h1 : kt1 ≤ 1) (ht : 1 ≤ ktmax)
    (k1 : A.fl ktmax = ktmax) (k2 : A.fl (ktmax - 1) = ktmax - 1) :
    ∃ (out : Fin m × Fin n → Option ℝ) (clear : Fin m × Fin n → Bool), cloudfieldF A L1 L2 weights q ktmean ktmax kt1 "original" es = .ok out ∧
      |((Finset.univ.filter fun p => clear p = true).card : ℝ) - q * ((m * n : ℕ) : ℝ)| ≤ 3 ∧ (∀ p p', clear p = true → clear p' = false → cm p < cm p') ∧
      ∀ p, (clear p = true → out p = some 1) ∧
        (clear p = false → 0 < edges (widenMask clear) m n p.1 p.2 → out p = none ∨ ∃ v, out p = some v ∧ 1 ≤ v ∧ v ≤ ktmax) ∧
        (clear p = false → ¬ 0 < edges (widenMask clear) m n p.1 p.2 → out p = none ∨ ∃ v, out p = some v ∧ 0 ≤ v) := by
  have card : Fintype.card (Fin m × Fin n) = m * n := by simp
  have N0 : (0 : ℝ) < ((m * n : ℕ) : ℝ) := by
    rcases Nat.eq_zero_or_pos (m * n) with e | e
    · rw [e] at q1; norm_num at q1
    · exact_mod_cast e
  have q3 : q ≤ 1 := by
    by_contra hq
    push Not at hq
    nlinarith
  obtain ⟨mask, hm, hord, hcount⟩ := C286_large_accepted h hk cm inj v2 (by rw [card]; exact hmn) q q3 (by rw [card]; exact q1)
  rw [card] at hcount
  have hc : ∃ p, mask p = false := by
    by_contra hall
    push Not at hall
    have e : (Finset.univ.filter fun p => mask p = true) = Finset.univ := Finset.filter_true_of_mem fun p _ => by simpa using hall p
    rw [e, Finset.card_univ, card] at hcount
    have := (abs_le.1 hcount).2
    linarith
  have l0 : 0 ≤ A.fl 0.99 := by
    have := hk.mono (show (0 : ℝ) ≤ 0.99 by norm_num)
    have z : A.fl 0 = 0 := by simpa using hk.int 0 (by norm_num)
    rwa [z] at this
  have l1 : A.fl 0.99 ≤ 1 := by
    have := hk.mono (show (0.99 : ℝ) ≤ 1 by norm_num)
    have z : A.fl 1 = 1 := by simpa using hk.int 1 (by norm_num)
    rwa [z] at this
  obtain ⟨out, ho, a1, a2, a3, -⟩ := C287_scaled h (by norm_num) hk cf p1 v1 (by rw [card]; exact hmn) mask (fun p => decide (0 < edges (widenMask mask) m n p.1 p.2)) hc ktmean ktmax kt1 (A.fl 0.99) l0 l1 h1 ht k1 k2
  refine ⟨out, mask, ?_, hcount, hord, fun p => ⟨a1 p, ?_, ?_⟩⟩
  · unfold cloudfieldF
    rw [e1, e2]
    simp only [bind, Except.bind, hm]
    rw [if_pos trivial]
    exact ho
  · intro c e
    rcases a2 with b | b
    · exact Or.inl (b p c (by simpa using e))
    · obtain ⟨v, x1, x2, x3, -⟩ := b p c (by simpa using e)
      exact Or.inr ⟨v, x1, x2, x3⟩
  · intro c e
    rcases a3 with b | b
    · exact Or.inl (b p c (by simpa using e))
    · exact Or.inr (b p c (by simpa using e))

open Classical in
/-- C291: with the alternate scaling, an accepted mask and two quantiles `lo < hi` of the cloudy cells that differ, there is no error:
clear cells are exactly 1, cells whose window holds an edge of the clear region are at least 1, and all others at least `kt1`. No cell
is NaN. -/
theorem C291_basic (h : FloatLike (2 ^ (-53 : ℤ)) A) (hk : KeepsIntegers A.fl) {m n : ℕ} (hm : m ≤ 10 ^ 6) (hn : n ≤ 10 ^ 6) (L1 L2 : List (Fin m × Fin n → ℝ)) (weights : List ℝ)
    (cf cm : Fin m × Fin n → ℝ) (e1 : stackFieldF A L1 weights false = .ok cf) (e2 : stackFieldF A L2 weights false = .ok cm) (q : ℝ) (clear : Fin m × Fin n → Bool)
    (hmask : clearMaskF A cm q = .ok clear) (lo hi : ℝ) (hhi : quantileAtF A (A.fl 0.999) (valsOn cf fun p => clear p = false) = some hi)
    (hlo : quantileAtF A (A.fl (1 - A.fl 0.999)) (valsOn cf fun p => clear p = false) = some lo) (hl : lo < hi) (ktmean ktmax kt1 : ℝ) (es : ℕ) (s1 : 2 ≤ es) (s2 : es ≤ 300)
    (p0 : 0 ≤ kt1) (p1 : kt1 ≤ 1) (pf : A.fl kt1 = kt1) (ht : 1 ≤ ktmax) (k1 : A.fl ktmax = ktmax) (k2 : A.fl (ktmax - 1) = ktmax - 1) :
    ∃ out : Fin m × Fin n → Option ℝ, cloudfieldF A L1 L2 weights q ktmean ktmax kt1 "basic" es = .ok out ∧
      ∀ p, (clear p = true → out p = some 1) ∧
        (clear p = false → (∃ a b, a < es ∧ b < es ∧ 0 < edges (widenMask clear) m n (reflect m (((p.1 : ℕ) : ℤ) - (es / 2 : ℕ) + a)) (reflect n (((p.2 : ℕ) : ℤ) - (es / 2 : ℕ) + b))) →
          ∃ v, out p = some v ∧ 1 ≤ v) ∧
        (clear p = false → (¬ ∃ a b, a < es ∧ b < es ∧ 0 < edges (widenMask clear) m n (reflect m (((p.1 : ℕ) : ℤ) - (es / 2 : ℕ) + a)) (reflect n (((p.2 : ℕ) : ℤ) - (es / 2 : ℕ) + b))) →
          ∃ v, out p = some v ∧ kt1 ≤ v) := by
  obtain ⟨out, w, ho, a1, a2, a3⟩ := C288_scaled h hk cf clear (fun p => decide (smoothedBinaryF A (widenMask clear) m n es 0 p.1 p.2)) ktmean ktmax kt1 (A.fl 0.999) lo hi hhi hlo hl p0 p1 pf ht k1 k2
  have hb := fun p : Fin m × Fin n => (C290_broadened h (widenMask clear) m n es p.1 p.2 s1 s2 hm hn p.1.2 p.2.2).2
  refine ⟨fun p => some (out p), ?_, fun p => ⟨fun c => congrArg some (a1 p c), ?_, ?_⟩⟩
  · unfold cloudfieldF
    rw [e1, e2]
    simp only [bind, Except.bind, hmask]
    rw [if_neg (by decide), if_pos trivial, ho]
    rfl
  · intro c e
    exact ⟨_, rfl, (a2 p c (by simpa using (hb p).2 e)).1⟩
  · intro c e
    exact ⟨_, rfl, (a3 p c (by simpa using fun x => e ((hb p).1 x))).1⟩

/-- The hypotheses hold in a concrete case: float64, 100 × 100 cells, one scale with weight 1 and the numbers of the cells as values,
half of the cells clear. -/
example : ∃ cf : Fin 100 × Fin 100 → ℝ, stackFieldF ⟨even53, sumEven⟩ [fun p : Fin 100 × Fin 100 => ((100 * (p.1 : ℕ) + (p.2 : ℕ) + 1 : ℕ) : ℝ)] [1] false = .ok cf ∧ (∀ p, 0 < cf p) ∧
    (∀ p, even53 (cf p) = cf p) ∧ Function.Injective cf ∧ (4001 : ℝ) ≤ 0.5 * ((100 * 100 : ℕ) : ℝ) ∧ (0.5 : ℝ) * ((100 * 100 : ℕ) : ℝ) ≤ ((100 * 100 : ℕ) : ℝ) - 4 := by
  have e : ∀ p : Fin 100 × Fin 100, even53 ((100 * (p.1 : ℕ) + (p.2 : ℕ) + 1 : ℕ) : ℝ) = ((100 * (p.1 : ℕ) + (p.2 : ℕ) + 1 : ℕ) : ℝ) := by
    intro p
    have := even53_int ((100 * (p.1 : ℕ) + (p.2 : ℕ) + 1 : ℕ) : ℤ) (by rw [abs_of_nonneg (by omega)]; have := p.1.2; have := p.2.2; omega)
    exact_mod_cast this
  refine ⟨fun p => ((100 * (p.1 : ℕ) + (p.2 : ℕ) + 1 : ℕ) : ℝ), ?_, fun p => by positivity, e, ?_, by norm_num, by norm_num⟩
  · have : stackSumF ⟨even53, sumEven⟩ [fun p : Fin 100 × Fin 100 => ((100 * (p.1 : ℕ) + (p.2 : ℕ) + 1 : ℕ) : ℝ)] [1] = fun p => ((100 * (p.1 : ℕ) + (p.2 : ℕ) + 1 : ℕ) : ℝ) := by
      funext p
      simp only [stackSumF, List.zip_cons_cons, List.zip_nil_left, List.foldl_cons, List.foldl_nil, mul_one, zero_add, e]
    unfold stackFieldF
    rw [this]
    simp
  · intro p p' hp
    have hp' : ((100 * (p.1 : ℕ) + (p.2 : ℕ) + 1 : ℕ) : ℝ) = ((100 * (p'.1 : ℕ) + (p'.2 : ℕ) + 1 : ℕ) : ℝ) := hp
    have hq : 100 * (p.1 : ℕ) + (p.2 : ℕ) + 1 = 100 * (p'.1 : ℕ) + (p'.2 : ℕ) + 1 := by exact_mod_cast hp'
    have := p.2.2
    have := p'.2.2
    exact Prod.ext (Fin.ext (by omega)) (Fin.ext (by omega))

/-- The hypotheses of `C291_basic` on the mask and the quantiles hold for a field of 100 × 100 distinct floats with half of the cells
clear. -/
example (f : Fin 100 × Fin 100 → ℝ) (inj : Function.Injective f) (hv : ∀ p, even53 (f p) = f p) :
    ∃ clear lo hi, clearMaskF ⟨even53, sumEven⟩ f 0.5 = .ok clear ∧ quantileAtF ⟨even53, sumEven⟩ (even53 0.999) (valsOn f fun p => clear p = false) = some hi ∧
      quantileAtF ⟨even53, sumEven⟩ (even53 (1 - even53 0.999)) (valsOn f fun p => clear p = false) = some lo ∧ lo < hi := by
  classical
  obtain ⟨mask, hm, -, hc⟩ := C286_large_accepted (A := ⟨even53, sumEven⟩) floatEven keepsEven f inj hv (by simp) 0.5 (by norm_num) (by simp; norm_num)
  have hlen : (valsOn f fun p => mask p = false).length + (Finset.univ.filter fun p => mask p = true).card = 10000 := by
    unfold valsOn
    rw [List.length_map, Finset.length_toList]
    have := Finset.card_filter_add_card_filter_not (s := (Finset.univ : Finset (Fin 100 × Fin 100))) (fun p => mask p = false)
    simp only [Finset.card_univ, Fintype.card_prod, Fintype.card_fin, Bool.not_eq_false] at this
    convert this using 3
    ext p
    simp
  have hd : (valsOn f fun p => mask p = false).Nodup := (Finset.nodup_toList _).map inj
  have hw : ∀ w ∈ valsOn f (fun p => mask p = false), even53 w = w := by
    intro w hw
    obtain ⟨p, -, rfl⟩ := List.mem_map.1 hw
    exact hv p
  refine ⟨mask, ?_⟩
  rw [hm]
  generalize (valsOn f fun p => mask p = false) = l at hlen hd hw
  have hL : 4990 ≤ (l.length : ℝ) ∧ (l.length : ℝ) ≤ 5010 := by
    have e : (l.length : ℝ) + ((Finset.univ.filter fun p => mask p = true).card : ℝ) = 10000 := by exact_mod_cast hlen
    have hN : ((Fintype.card (Fin 100 × Fin 100) : ℕ) : ℝ) = 10000 := by
      rw [Fintype.card_prod, Fintype.card_fin]
      norm_num
    rw [hN] at hc
    generalize ((Finset.univ.filter fun p => mask p = true).card : ℝ) = C at e hc
    obtain ⟨c1, c2⟩ := abs_le.1 hc
    constructor <;> linarith
  have hne : l ≠ [] := by rintro rfl; norm_num at hL
  have hln : l.length ≤ 5010 := by exact_mod_cast hL.2
  clear hlen hc hm inj hv
  have z : even53 0 = 0 := by simpa using even53_int 0 (by norm_num)
  have o : even53 1 = 1 := by simpa using even53_int 1 (by norm_num)
  have k4 : even53 4000 = 4000 := by simpa using even53_int 4000 (by norm_num)
  have k1 : even53 1000 = 1000 := by simpa using even53_int 1000 (by norm_num)
  have u : ∀ x : ℝ, |even53 x - x| ≤ 0.01 * |x| := fun x => (even53_rounds x).trans (mul_le_mul_of_nonneg_right (by norm_num) (abs_nonneg _))
  have a1 : even53 0.999 ≤ 1 := o ▸ even53_mono (by norm_num)
  have a0 : 0.9 ≤ even53 0.999 := by
    have := (abs_le.1 (u 0.999)).1
    rw [abs_of_pos (by norm_num)] at this
    norm_num at this ⊢
    linarith
  have b0 : 0 ≤ even53 (1 - even53 0.999) := by
    have := even53_mono (show (0 : ℝ) ≤ 1 - even53 0.999 by linarith)
    rwa [z] at this
  have b1 : even53 (1 - even53 0.999) ≤ 0.11 := by
    have := (abs_le.1 (u (1 - even53 0.999))).2
    rw [abs_of_nonneg (by linarith)] at this
    linarith
  obtain ⟨i, hi, ei, il, hq, c1, -⟩ := quantileAtF_between (A := ⟨even53, sumEven⟩) keepsEven floatEven.rounds (by norm_num) (by linarith : 0 ≤ even53 0.999) a1 hne (by omega) hw
  obtain ⟨j, lo, ej, -, hq', -, c2⟩ := quantileAtF_between (A := ⟨even53, sumEven⟩) keepsEven floatEven.rounds (by norm_num) b0 (by linarith) hne (by omega) hw
  have i4 : 4000 ≤ i := by
    have := even53_mono (show (4000 : ℝ) ≤ ((l.length : ℝ) - 1) * even53 0.999 by nlinarith [hL.1])
    rw [k4] at this
    have f4 : (4000 : ℤ) ≤ ⌊even53 (((l.length : ℝ) - 1) * even53 0.999)⌋ := Int.le_floor.2 (by rw [Int.cast_ofNat]; exact this)
    have ei' : i = ⌊even53 (((l.length : ℝ) - 1) * even53 0.999)⌋.toNat := ei
    generalize ⌊even53 (((l.length : ℝ) - 1) * even53 0.999)⌋ = t at f4 ei'
    omega
  have j1 : j ≤ 1000 := by
    have := even53_mono (show ((l.length : ℝ) - 1) * even53 (1 - even53 0.999) ≤ 1000 by nlinarith [hL.1, hL.2])
    rw [k1] at this
    have f4 : ⌊even53 (((l.length : ℝ) - 1) * even53 (1 - even53 0.999))⌋ ≤ (1000 : ℤ) := Int.floor_le_iff.2 (by rw [Int.cast_ofNat]; linarith)
    have ej' : j = ⌊even53 (((l.length : ℝ) - 1) * even53 (1 - even53 0.999))⌋.toNat := ej
    generalize ⌊even53 (((l.length : ℝ) - 1) * even53 (1 - even53 0.999))⌋ = t at f4 ej'
    omega
  exact ⟨lo, hi, rfl, hq, hq', (c2.trans_lt (srt_strict hd (by omega) il)).trans_le c1⟩

end SST.Round
