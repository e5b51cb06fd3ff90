import Verif.Proofs.TfAvg
import Verif.Proofs.TfInterp

/-! # Helper lemmas: folding one-sided spectra, Parseval, interpolation of correlations -/

namespace SST.Tf
open SST SST.Dft SST.Corr

/-- One-sided sum of a symmetric spectrum. -/
theorem fold_sum (L : ℕ) (hL : 0 < L) (a : ℕ → ℝ) (h : ∀ k, 0 < k → k < L → a (L - k) = a k) :
    ∑ k ∈ Finset.range (L / 2 + 1), (if k = 0 ∨ 2 * k = L then 1 else 2) * a k = ∑ k ∈ Finset.range L, a k := by
  have hsub : Finset.range (L / 2 + 1) ∪ Finset.Ico (L / 2 + 1) (max L (L / 2 + 1)) = Finset.range (max L (L / 2 + 1)) := by
    ext k; simp only [Finset.mem_union, Finset.mem_range, Finset.mem_Ico]; omega
  by_cases h1 : L = 1
  · subst h1; simp
  have hm : max L (L / 2 + 1) = L := by omega
  rw [hm] at hsub
  have hdis : Disjoint (Finset.range (L / 2 + 1)) (Finset.Ico (L / 2 + 1) L) := by
    rw [Finset.disjoint_left]; intro k h1 h2
    rw [Finset.mem_range] at h1; rw [Finset.mem_Ico] at h2; omega
  rw [← hsub, Finset.sum_union hdis]
  have e : ∑ k ∈ Finset.Ico (L / 2 + 1) L, a k = ∑ k ∈ (Finset.range (L / 2 + 1)).filter (fun k => ¬ (k = 0 ∨ 2 * k = L)), a k := by
    refine Finset.sum_bij' (fun k _ => L - k) (fun k _ => L - k) ?_ ?_ ?_ ?_ ?_
    · intro k hk; rw [Finset.mem_Ico] at hk; rw [Finset.mem_filter, Finset.mem_range]; omega
    · intro k hk; rw [Finset.mem_filter, Finset.mem_range] at hk; rw [Finset.mem_Ico]; omega
    · intro k hk; rw [Finset.mem_Ico] at hk; show L - (L - k) = k; omega
    · intro k hk; rw [Finset.mem_filter, Finset.mem_range] at hk; show L - (L - k) = k; omega
    · intro k hk; rw [Finset.mem_Ico] at hk; exact (h k (by omega) (by omega)).symm
  rw [e, Finset.sum_filter, ← Finset.sum_add_distrib]
  apply Finset.sum_congr rfl
  intro k _
  by_cases hc : k = 0 ∨ 2 * k = L
  · rw [if_pos hc, if_neg (not_not.2 hc)]; ring
  · rw [if_neg hc, if_pos hc]; ring

/-- Parseval. -/
theorem parseval (x : List ℝ) (hn : 0 < x.length) :
    ∑ k ∈ Finset.range x.length, Complex.normSq (∑ j ∈ Finset.range x.length, ((at0 x j : ℝ) : ℂ) * twiddle x.length (j * k)) =
      x.length * ∑ j ∈ Finset.range x.length, at0 x j ^ 2 := by
  set xc : List ℂ := x.map fun (v : ℝ) => (v : ℂ) with hxc
  have hl : xc.length = x.length := by simp [hxc]
  have h := circ_corr xc xc rfl (m := 0) (by rw [hl]; exact hn)
  have hz : (List.zipWith (fun u v => u * (starRingEnd ℂ) v) (fft xc) (fft xc)).length = x.length := by simp [hl]
  rw [at0_ifft (by rw [hz]; exact hn), hz] at h
  have hn' : (x.length : ℂ) ≠ 0 := by exact_mod_cast hn.ne'
  rw [div_eq_iff hn'] at h
  have e1 : ∀ k ∈ Finset.range x.length, at0 (List.zipWith (fun u v => u * (starRingEnd ℂ) v) (fft xc) (fft xc)) k *
      twiddle x.length (-(k * (0 : ℕ))) = ((Complex.normSq (∑ j ∈ Finset.range x.length, ((at0 x j : ℝ) : ℂ) * twiddle x.length (j * k)) : ℝ) : ℂ) := by
    intro k hk
    rw [Finset.mem_range] at hk
    rw [at0_zipWith_mul _ _ rfl, at0_fft (by rw [hl]; exact hk), hl]
    have : ∀ j, at0 xc j = ((at0 x j : ℝ) : ℂ) := fun j => at0_map _ (by simp) x j
    simp only [this]
    rw [Complex.mul_conj]
    simp [twiddle_zero]
  rw [Finset.sum_congr rfl e1] at h
  have e2 : ∑ l ∈ Finset.range xc.length, at0 xc ((l + 0) % xc.length) * (starRingEnd ℂ) (at0 xc l) =
      ((∑ j ∈ Finset.range x.length, at0 x j ^ 2 : ℝ) : ℂ) := by
    rw [hl]
    push_cast
    apply Finset.sum_congr rfl
    intro j hj
    rw [Finset.mem_range] at hj
    have : at0 xc j = ((at0 x j : ℝ) : ℂ) := at0_map _ (by simp) x j
    rw [add_zero, Nat.mod_eq_of_lt hj, this, Complex.conj_ofReal]; ring
  rw [e2] at h
  have h3 : ((∑ k ∈ Finset.range x.length, Complex.normSq (∑ j ∈ Finset.range x.length, ((at0 x j : ℝ) : ℂ) * twiddle x.length (j * k)) : ℝ) : ℂ) =
      ((x.length * ∑ j ∈ Finset.range x.length, at0 x j ^ 2 : ℝ) : ℂ) := by
    push_cast at h ⊢
    rw [h]; ring
  exact_mod_cast h3

theorem normSq_symm (x : List ℝ) {k : ℕ} (hk : k < x.length) :
    Complex.normSq (∑ j ∈ Finset.range x.length, ((at0 x j : ℝ) : ℂ) * twiddle x.length (j * (x.length - k : ℕ))) =
      Complex.normSq (∑ j ∈ Finset.range x.length, ((at0 x j : ℝ) : ℂ) * twiddle x.length (j * k)) := by
  rw [← Complex.normSq_conj (∑ j ∈ Finset.range x.length, ((at0 x j : ℝ) : ℂ) * twiddle x.length (j * k))]
  rw [map_sum (starRingEnd ℂ)]
  refine congrArg Complex.normSq ?_
  apply Finset.sum_congr rfl
  intro j _
  rw [map_mul, Complex.conj_ofReal, ← twiddle_neg]
  congr 1
  apply twiddle_period _ (by omega)
  refine ⟨j, ?_⟩
  push_cast [Nat.cast_sub hk.le]; ring

theorem at0_replicate {n j : ℕ} (h : j < n) : at0 (List.replicate n (1 : ℝ)) j = 1 := by
  rw [at0_of_lt (by simpa using h)]; simp

/-- Rectangular window, no detrending: the plain transform. -/
theorem spectrum_plain (x : List ℝ) (k : ℕ) :
    spectrum (List.replicate x.length 1) .none x k = ∑ j ∈ Finset.range x.length, ((at0 x j : ℝ) : ℂ) * twiddle x.length (j * k) := by
  unfold spectrum
  apply Finset.sum_congr rfl
  intro j hj
  rw [Finset.mem_range] at hj
  rw [at0_replicate hj, mul_one]; rfl

theorem segment_all (x : List ℝ) : segment x x.length 0 = x := by simp [segment]

/-! ## `np.interp` of bounded values -/

theorem npInterp_bounded (B : ℝ) (pts : List (ℝ × XR)) (hs : pts.Pairwise fun a b => a.1 < b.1)
    (hb : ∀ p ∈ pts, ∃ v : ℝ, p.2 = .fin v ∧ |v| ≤ B) (x : ℝ) :
    npInterp pts x = .nan ∨ ∃ v : ℝ, npInterp pts x = .fin v ∧ |v| ≤ B := by
  induction pts with
  | nil => exact Or.inl rfl
  | cons a rest ih =>
    cases rest with
    | nil =>
      unfold npInterp
      split_ifs
      · exact Or.inr (hb a (by simp))
      · exact Or.inl rfl
    | cons b rest =>
      rw [List.pairwise_cons] at hs
      unfold npInterp
      split_ifs with h1 h2 h3
      · exact Or.inl rfl
      · exact Or.inr (hb a (by simp))
      · right
        obtain ⟨v, hv, hv'⟩ := hb a (by simp)
        obtain ⟨w, hw, hw'⟩ := hb b (by simp)
        rw [hv, hw]
        refine ⟨_, rfl, ?_⟩
        push Not at h1
        have hab := hs.1 b (by simp)
        have hd : 0 < b.1 - a.1 := by linarith
        set t := (x - a.1) / (b.1 - a.1) with ht
        have t0 : 0 ≤ t := div_nonneg (by linarith) hd.le
        have t1 : t ≤ 1 := by rw [ht, div_le_one hd]; linarith
        have e : (w - v) / (b.1 - a.1) * (x - a.1) + v = (1 - t) * v + t * w := by rw [ht]; field_simp; ring
        rw [e]
        rw [abs_le] at hv' hw' ⊢
        constructor <;> nlinarith
      · exact ih hs.2 (fun p hp => hb p (by simp [hp]))

theorem npInterp_in (pts : List (ℝ × XR)) (hs : pts.Pairwise fun a b => a.1 < b.1)
    (hb : ∀ p ∈ pts, ∃ v : ℝ, p.2 = .fin v) (x : ℝ) (h1 : ∃ p ∈ pts, p.1 ≤ x) (h2 : ∃ p ∈ pts, x ≤ p.1) :
    ∃ v : ℝ, npInterp pts x = .fin v := by
  induction pts with
  | nil => simp at h1
  | cons a rest ih =>
    cases rest with
    | nil =>
      unfold npInterp
      simp only [List.mem_singleton, exists_eq_left] at h1 h2
      rw [if_pos (le_antisymm h2 h1)]
      exact hb a (by simp)
    | cons b rest =>
      rw [List.pairwise_cons] at hs
      unfold npInterp
      have hax : a.1 ≤ x := by
        obtain ⟨p, hp, hpx⟩ := h1
        rcases List.mem_cons.1 hp with rfl | hp
        · exact hpx
        · exact (hs.1 p hp).le.trans hpx
      rw [if_neg (not_lt.2 hax)]
      split_ifs with h3 h4
      · exact hb a (by simp)
      · obtain ⟨v, hv⟩ := hb a (by simp)
        obtain ⟨w, hw⟩ := hb b (by simp)
        rw [hv, hw]; exact ⟨_, rfl⟩
      · push Not at h4
        apply ih hs.2 (fun p hp => hb p (by simp [hp])) ⟨b, by simp, h4⟩
        obtain ⟨p, hp, hpx⟩ := h2
        rcases List.mem_cons.1 hp with rfl | hp
        · exact absurd (le_antisymm hpx hax) h3
        · exact ⟨p, hp, hpx⟩

theorem npInterp_out (pts : List (ℝ × XR)) (x : ℝ) (h : (∀ p ∈ pts, x < p.1) ∨ (∀ p ∈ pts, p.1 < x)) : npInterp pts x = .nan := by
  induction pts with
  | nil => rfl
  | cons a rest ih =>
    have hne : x ≠ a.1 := by rcases h with h | h <;> [exact (h a (by simp)).ne; exact (h a (by simp)).ne']
    cases rest with
    | nil => unfold npInterp; rw [if_neg hne]
    | cons b rest =>
      unfold npInterp
      rcases h with h | h
      · rw [if_pos (h a (by simp))]
      · rw [if_neg (not_lt.2 (h a (by simp)).le), if_neg hne, if_neg (not_lt.2 (h b (by simp)).le)]
        exact ih (Or.inr fun p hp => h p (by simp [hp]))

theorem npInterp_node (pts : List (ℝ × XR)) (hs : pts.Pairwise fun a b => a.1 < b.1) {p : ℝ × XR} (hp : p ∈ pts) :
    npInterp pts p.1 = p.2 := by
  induction pts with
  | nil => simp at hp
  | cons a rest ih =>
    cases rest with
    | nil => simp at hp; subst hp; unfold npInterp; rw [if_pos rfl]
    | cons b rest =>
      rw [List.pairwise_cons] at hs
      unfold npInterp
      rcases List.mem_cons.1 hp with rfl | hp'
      · rw [if_neg (lt_irrefl _), if_pos rfl]
      · have hap := hs.1 p hp'
        rw [if_neg (not_lt.2 hap.le), if_neg hap.ne']
        have : ¬ p.1 < b.1 := by
          rcases List.mem_cons.1 hp' with rfl | h
          · exact lt_irrefl _
          · exact not_lt.2 ((List.pairwise_cons.1 hs.2).1 p h).le
        rw [if_neg this]
        exact ih hs.2 hp'

theorem filterMap_fin (l : List ℝ) : (l.map XR.fin).filterMap finVal = l := by
  induction l with
  | nil => rfl
  | cons a l ih => rw [List.map_cons, List.filterMap_cons]; simp only [finVal]; rw [ih]

theorem mapM_ok {α β : Type} (f : α → Except PyErr β) (g : α → β) (l : List α) (h : ∀ a ∈ l, f a = .ok (g a)) :
    l.mapM f = .ok (l.map g) := by
  induction l with
  | nil => rfl
  | cons a l ih =>
    rw [List.mapM_cons, h a (by simp), ih (fun b hb => h b (by simp [hb]))]; rfl

end SST.Tf
