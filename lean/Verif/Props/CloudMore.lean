import Verif.Props.CloudMask
import Verif.Props.CloudScale
import Verif.Props.CloudTs

/-!
# Properties C190–C194: invariances and order in the cloud field generator
-/

namespace SST.Props.CloudMore
open SST SST.Stats SST.Cloud SST.Props.CloudMask

variable {ι κ : Type} [Fintype ι] [Fintype κ]

/-! ## C190 -/

theorem srt_map {g : ℝ → ℝ} (hg : StrictMono g) (l : List ℝ) : srt (l.map g) = (srt l).map g := by
  unfold srt
  exact (List.map_insertionSort (r := (· ≤ ·)) (s := (· ≤ ·)) g l fun a _ b _ => hg.le_iff_le.symm).symm

theorem getD_map (l : List ℝ) (g : ℝ → ℝ) {k : ℕ} (hk : k < l.length) : (l.map g).getD k 0 = g (l.getD k 0) := by
  rw [List.getD_eq_getElem _ _ (by simpa using hk), List.getD_eq_getElem _ _ hk, List.getElem_map]

/-- The cells up to the quantile are the cells up to an order statistic. -/
theorem le_quantile_iff [Nonempty ι] (f : ι → ℝ) {q : ℝ} (h0 : 0 ≤ q) (h1 : q ≤ 1) {t : ℝ} (ht : quantileLin q (vals f) = some t) (i : ι) :
    f i ≤ t ↔ f i ≤ (srt (vals f)).getD ⌊q * ((Fintype.card ι : ℝ) - 1)⌋.toNat 0 := by
  obtain ⟨p0, p1⟩ := pos_bounds (ι := ι) h0 h1
  rw [quantileLin_eq, if_neg (vals_ne_nil f), Option.some.injEq, vals_length] at ht
  have hb := interp_between (l := vals f) (vals_ne_nil f) p0 (by rw [vals_length]; exact p1)
  rw [ht] at hb
  obtain ⟨k1, k2, k3⟩ := idx_bounds (n := Fintype.card ι) Fintype.card_pos p0 p1
  refine ⟨fun h => ?_, fun h => h.trans hb.1⟩
  by_contra hc
  push Not at hc
  generalize hp : q * ((Fintype.card ι : ℝ) - 1) = p at *
  -- the value of the cell is a later order statistic
  obtain ⟨j, hj, he⟩ := List.getElem_of_mem ((srt_perm (vals f)).mem_iff.2 (vals_mem f i))
  rw [srt_length] at hj
  have hjk : ⌊p⌋.toNat < j := by
    by_contra hle
    have := srt_mono (l := vals f) (not_lt.1 hle) (by rw [vals_length]; exact k1)
    rw [List.getD_eq_getElem (n := j) _ _ (by rw [srt_length]; exact hj), he] at this
    linarith
  have hnext : (srt (vals f)).getD (⌊p⌋.toNat + 1) 0 ≤ f i := by
    have := srt_mono (l := vals f) (i := ⌊p⌋.toNat + 1) (j := j) (by omega) hj
    rwa [List.getD_eq_getElem (n := j) _ _ (by rw [srt_length]; exact hj), he] at this
  have hf0 : 0 ≤ ⌊p⌋ := Int.floor_nonneg.2 p0
  rcases eq_or_ne ((⌊p⌋ : ℤ) : ℝ) p with e | e
  · have : ⌈p⌉ = ⌊p⌋ := by rw [← e]; simp
    rw [this] at hb
    linarith
  · have hlt : ((⌊p⌋ : ℤ) : ℝ) < p := lt_of_le_of_ne (Int.floor_le p) e
    have hcl : ⌈p⌉ = ⌊p⌋ + 1 := by
      rw [Int.ceil_eq_iff]; push_cast
      exact ⟨by linarith, (Int.lt_floor_add_one p).le⟩
    have hn : ⌈p⌉.toNat = ⌊p⌋.toNat + 1 := by omega
    unfold interpAt at ht
    rw [hn] at ht
    have := Int.lt_floor_add_one p
    nlinarith

open Classical in
theorem clearMask_set [Nonempty ι] (f : ι → ℝ) {q : ℝ} (h0 : 0 < q) (h1 : q ≤ 1) (s : ι → Prop)
    (hs : ∀ i, s i ↔ f i ≤ (srt (vals f)).getD ⌊q * ((Fintype.card ι : ℝ) - 1)⌋.toNat 0) :
    clearMask f q = if isclose q (((Finset.univ.filter s).card : ℕ) / (Fintype.card ι : ℝ)) then .ok (fun i => decide (s i)) else .error .assertionError := by
  obtain ⟨t, ht⟩ := quantile_exists f q
  rw [clearMask_eq h0 h1 ht]
  have e : (fun i => f i ≤ t) = s := funext fun i => propext ((le_quantile_iff f h0.le h1 ht i).trans (hs i).symm)
  have e2 : ∀ i, (f i ≤ t) = s i := fun i => congrFun e i
  simp only [e2]

/-- C190: only the order of the values of the field matters for the clear mask: any strictly increasing transformation of the field gives
the same mask or the same error. -/
theorem C190_rescaled [Nonempty ι] (f : ι → ℝ) (g : ℝ → ℝ) (hg : StrictMono g) (q : ℝ) : clearMask (fun i => g (f i)) q = clearMask f q := by
  by_cases hr : q > 1 ∨ q < 0
  · unfold clearMask; rw [if_pos hr, if_pos hr]
  · push Not at hr
    rcases eq_or_lt_of_le hr.2 with h0 | h0
    · subst h0
      unfold clearMask
      simp
    · have hv : vals (fun i => g (f i)) = (vals f).map g := by unfold vals; rw [List.map_map]; rfl
      obtain ⟨p0, p1⟩ := pos_bounds (ι := ι) h0.le hr.1
      obtain ⟨k1, -, -⟩ := idx_bounds (n := Fintype.card ι) Fintype.card_pos p0 p1
      rw [clearMask_set (fun i => g (f i)) h0 hr.1 (fun i => f i ≤ (srt (vals f)).getD ⌊q * ((Fintype.card ι : ℝ) - 1)⌋.toNat 0), clearMask_set f h0 hr.1 _ fun i => Iff.rfl]
      intro i
      rw [hv, srt_map hg, getD_map _ _ (by rw [srt_length, vals_length]; exact k1), hg.le_iff_le]

/-- C190: a larger clear fraction never makes a clear cell cloudy. -/
theorem C190_nested [Nonempty ι] (f : ι → ℝ) (q q' : ℝ) (hq : q ≤ q') (mask mask' : ι → Bool) (h : clearMask f q = .ok mask) (h' : clearMask f q' = .ok mask')
    (i : ι) (hi : mask i = true) : mask' i = true := by
  have r : ∀ {q : ℝ} {m : ι → Bool}, clearMask f q = .ok m → 0 ≤ q ∧ q ≤ 1 := by
    intro q m h
    by_cases hr : q > 1 ∨ q < 0
    · unfold clearMask at h
      rw [if_pos hr] at h
      cases h
    · push Not at hr
      exact ⟨hr.2, hr.1⟩
  have e : ∀ {q : ℝ} {m : ι → Bool}, 0 < q → clearMask f q = .ok m → ∀ i, m i = true ↔ f i ≤ (srt (vals f)).getD ⌊q * ((Fintype.card ι : ℝ) - 1)⌋.toNat 0 := by
    intro q m h0 h i
    rw [clearMask_set f h0 (r h).2 _ fun i => Iff.rfl] at h
    split_ifs at h
    rw [← Except.ok.inj h]
    simp
  obtain ⟨q0, q1⟩ := r h
  obtain ⟨q0', q1'⟩ := r h'
  rcases eq_or_lt_of_le q0 with h0 | h0
  · subst h0
    rw [(C66_range f 2 (by norm_num)).2] at h
    rw [← Except.ok.inj h] at hi
    cases hi
  · rw [e h0 h i] at hi
    rw [e (h0.trans_le hq) h' i]
    refine hi.trans ?_
    obtain ⟨p0, p1⟩ := pos_bounds (ι := ι) q0' q1'
    obtain ⟨k1, -, -⟩ := idx_bounds (n := Fintype.card ι) Fintype.card_pos p0 p1
    refine srt_mono ?_ (by rw [vals_length]; exact k1)
    have : (1 : ℝ) ≤ Fintype.card ι := by exact_mod_cast Fintype.card_pos (α := ι)
    exact Int.toNat_le_toNat (Int.floor_le_floor (mul_le_mul_of_nonneg_right hq (by linarith)))

open Classical in
/-- C190: the mask does not depend on where the cells are: rearranging the cells of the field rearranges the mask. -/
theorem C190_rearranged [Nonempty ι] [Nonempty κ] (f : ι → ℝ) (e : κ ≃ ι) (q : ℝ) : clearMask (fun k => f (e k)) q = (clearMask f q).map fun m k => m (e k) := by
  by_cases hr : q > 1 ∨ q < 0
  · unfold clearMask; rw [if_pos hr, if_pos hr]; rfl
  · push Not at hr
    rcases eq_or_lt_of_le hr.2 with h0 | h0
    · subst h0
      rw [(C66_range f 2 (by norm_num)).2, (C66_range (fun k => f (e k)) 2 (by norm_num)).2]
      rfl
    · have hperm : (vals fun k => f (e k)).Perm (vals f) := by
        have : (vals fun k => f (e k)) = ((Finset.univ : Finset κ).toList.map e).map f := by unfold vals; rw [List.map_map]; rfl
        rw [this]
        unfold vals
        refine List.Perm.map _ ?_
        rw [List.perm_ext_iff_of_nodup ((Finset.nodup_toList _).map e.injective) (Finset.nodup_toList _)]
        intro a
        simp only [List.mem_map, Finset.mem_toList, Finset.mem_univ, true_and, iff_true]
        exact ⟨e.symm a, by simp⟩
      have hsrt : srt (vals fun k => f (e k)) = srt (vals f) := by
        refine srt_eq_of_perm (hperm.trans (srt_perm _).symm) ?_
        exact List.pairwise_insertionSort _ _
      have hcard : Fintype.card κ = Fintype.card ι := Fintype.card_congr e
      rw [clearMask_set (fun k => f (e k)) h0 hr.1 (fun k => f (e k) ≤ (srt (vals f)).getD ⌊q * ((Fintype.card ι : ℝ) - 1)⌋.toNat 0) (fun k => by rw [hsrt, hcard]),
        clearMask_set f h0 hr.1 _ fun i => Iff.rfl, hcard]
      have hc : (Finset.univ.filter fun k => f (e k) ≤ (srt (vals f)).getD ⌊q * ((Fintype.card ι : ℝ) - 1)⌋.toNat 0).card =
          (Finset.univ.filter fun i => f i ≤ (srt (vals f)).getD ⌊q * ((Fintype.card ι : ℝ) - 1)⌋.toNat 0).card := by
        apply Finset.card_bij (fun k _ => e k)
        · intro a ha; simpa using ha
        · intro a _ b _ h; exact e.injective h
        · intro b hb; exact ⟨e.symm b, by simpa using hb, by simp⟩
      rw [hc]
      split_ifs <;> rfl

/-- A concrete accepted mask: half of two cells, on any increasing scale. -/
example : ∃ mask, clearMask (fun i : Fin 2 => Real.exp (i : ℕ)) (1 / 2) = .ok mask ∧ mask 0 = true ∧ mask 1 = false := by
  have h := C190_rescaled (fun i : Fin 2 => ((i : ℕ) : ℝ)) Real.exp Real.exp_strictMono (1 / 2)
  rw [h]
  have hv : srt (vals fun i : Fin 2 => ((i : ℕ) : ℝ)) = [0, 1] := by
    refine srt_eq_of_perm ?_ (by simp)
    unfold vals
    refine (List.Perm.map _ (?_ : (Finset.univ : Finset (Fin 2)).toList.Perm [0, 1])).trans (by simp)
    rw [List.perm_ext_iff_of_nodup (Finset.nodup_toList _) (by decide)]
    intro a
    fin_cases a <;> simp
  have hk : ⌊(1 / 2 : ℝ) * ((Fintype.card (Fin 2) : ℝ) - 1)⌋.toNat = 0 := by norm_num
  classical
  rw [clearMask_set (fun i : Fin 2 => ((i : ℕ) : ℝ)) (by norm_num) (by norm_num) (fun i => i = 0)]
  · have : (@Finset.filter (Fin 2) (fun i => i = 0) (fun i => Classical.propDecidable _) Finset.univ).card = 1 := by
      rw [Finset.card_eq_one]
      exact ⟨0, by ext i; simp⟩
    rw [this, if_pos (by norm_num [isclose])]
    exact ⟨_, rfl, by simp, by simp⟩
  · intro i
    rw [hv, hk]
    fin_cases i <;> simp

/-! ## C191 -/

/-- C191: exchanging rows and columns of the mask exchanges rows and columns of the edges. -/
theorem C191_transposed (mask : ℕ → ℕ → Bool) (m n i j : ℕ) : edges (fun a b => mask b a) n m j i = edges mask m n i j := by
  have h0 : sobel0 (maskVal fun a b => mask b a) n m j i = sobel1 (maskVal mask) m n i j := rfl
  have h1 : sobel1 (maskVal fun a b => mask b a) n m j i = sobel0 (maskVal mask) m n i j := rfl
  unfold edges
  rw [h0, h1, add_comm]

theorem reflect_mirror {n : ℕ} (hn : 0 < n) (i : ℤ) : reflect n ((n : ℤ) - 1 - i) = n - 1 - reflect n i := by
  have h0 : 0 ≤ i % (2 * n) := Int.emod_nonneg _ (by omega)
  have h1 : i % (2 * n) < 2 * n := Int.emod_lt_of_pos _ (by omega)
  have e : ((n : ℤ) - 1 - i) % (2 * n) = if i % (2 * n) < n then (n : ℤ) - 1 - i % (2 * n) else 3 * n - 1 - i % (2 * n) := by
    have hd := Int.emod_add_mul_ediv i (2 * n)
    split_ifs with h
    · rw [show (n : ℤ) - 1 - i = ((n : ℤ) - 1 - i % (2 * n)) + (2 * n) * (-(i / (2 * n))) by linarith, Int.add_mul_emod_self_left, Int.emod_eq_of_lt (by omega) (by omega)]
    · rw [show (n : ℤ) - 1 - i = (3 * (n : ℤ) - 1 - i % (2 * n)) + (2 * n) * (-(i / (2 * n)) - 1) by linarith, Int.add_mul_emod_self_left, Int.emod_eq_of_lt (by omega) (by omega)]
  unfold reflect
  simp only
  rw [e]
  split_ifs <;> omega

theorem ext_mirror (mask : ℕ → ℕ → Bool) {m : ℕ} (n : ℕ) (hm : 0 < m) (i j : ℤ) :
    ext (maskVal fun a b => mask (m - 1 - a) b) m n i j = ext (maskVal mask) m n ((m : ℤ) - 1 - i) j := by
  unfold ext
  rw [reflect_mirror hm]
  rfl

/-- C191: the edges of the mirrored mask are the mirrored edges. -/
theorem C191_mirrored (mask : ℕ → ℕ → Bool) (m n i j : ℕ) (hi : i < m) : edges (fun a b => mask (m - 1 - a) b) m n i j = edges mask m n (m - 1 - i) j := by
  have hm : 0 < m := by omega
  have c : (((m - 1 - i : ℕ)) : ℤ) = (m : ℤ) - 1 - i := by omega
  have h0 : sobel0 (maskVal fun a b => mask (m - 1 - a) b) m n i j = -sobel0 (maskVal mask) m n ((m - 1 - i : ℕ) : ℤ) j := by
    unfold sobel0
    simp only [ext_mirror mask n hm]
    rw [c, show (m : ℤ) - 1 - ((i : ℤ) + 1) = (m : ℤ) - 1 - i - 1 by ring, show (m : ℤ) - 1 - ((i : ℤ) - 1) = (m : ℤ) - 1 - i + 1 by ring]
    ring
  have h1 : sobel1 (maskVal fun a b => mask (m - 1 - a) b) m n i j = sobel1 (maskVal mask) m n ((m - 1 - i : ℕ) : ℤ) j := by
    unfold sobel1
    simp only [ext_mirror mask n hm]
    rw [c, show (m : ℤ) - 1 - ((i : ℤ) + 1) = (m : ℤ) - 1 - i - 1 by ring, show (m : ℤ) - 1 - ((i : ℤ) - 1) = (m : ℤ) - 1 - i + 1 by ring]
    ring
  unfold edges
  rw [h0, h1, neg_sq]

/-- C191: likewise the broadened edges, for an odd filter size. -/
theorem C191_broadened_mirrored_partial (mask : ℕ → ℕ → Bool) (m n s i j : ℕ) (h2 : s ≤ 316) (hodd : Odd s) (hi : i < m) (hj : j < n) :
    smoothedBinary (fun a b => mask (m - 1 - a) b) m n s 0 i j ↔ smoothedBinary mask m n s 0 (m - 1 - i) j := by
  obtain ⟨r, hr⟩ := hodd
  have hm : 0 < m := by omega
  rw [C67_broadened _ m n s i j (by omega) h2 hi hj, C67_broadened mask m n s (m - 1 - i) j (by omega) h2 (by omega) hj]
  have key : ∀ a b : ℕ, a < s → edges (fun a b => mask (m - 1 - a) b) m n (reflect m ((i : ℤ) - (s / 2 : ℕ) + a)) b =
      edges mask m n (reflect m (((m - 1 - i : ℕ) : ℤ) - (s / 2 : ℕ) + ((s - 1 - a : ℕ) : ℤ))) b := by
    intro a b ha
    rw [C191_mirrored mask m n _ b (reflect_lt hm _), ← reflect_mirror hm]
    congr 2
    omega
  constructor
  · rintro ⟨a, b, ha, hb, he⟩
    rw [key a _ ha] at he
    exact ⟨s - 1 - a, b, by omega, hb, he⟩
  · rintro ⟨a, b, ha, hb, he⟩
    refine ⟨s - 1 - a, b, by omega, hb, ?_⟩
    rw [key _ _ (by omega), show s - 1 - (s - 1 - a) = a by omega]
    exact he

/-- A cloud front across a row of eight cells. -/
def front : ℕ → ℕ → Bool := fun i _ => decide (4 ≤ i)

/-- C191 violated for even sizes: the broadened edges of a mirrored cloud front are not the mirrored broadened edges; they reach further
to one side. -/
theorem C191_violated_even : smoothedBinary (fun a b => front (8 - 1 - a) b) 8 1 2 0 5 0 ∧ ¬ smoothedBinary front 8 1 2 0 (8 - 1 - 5) 0 := by
  rw [C67_broadened _ 8 1 2 5 0 (by norm_num) (by norm_num) (by norm_num) (by norm_num), C67_broadened _ 8 1 2 (8 - 1 - 5) 0 (by norm_num) (by norm_num) (by norm_num) (by norm_num)]
  have r0 : ∀ k : ℤ, k = -1 ∨ k = 0 → reflect 1 k = 0 := by rintro k (rfl | rfl) <;> decide
  constructor
  · refine ⟨0, 0, by norm_num, by norm_num, ?_⟩
    rw [show reflect 8 (((5 : ℕ) : ℤ) - ((2 / 2 : ℕ) : ℤ) + ((0 : ℕ) : ℤ)) = 4 by decide, show reflect 1 (((0 : ℕ) : ℤ) - ((2 / 2 : ℕ) : ℤ) + ((0 : ℕ) : ℤ)) = 0 by decide]
    have e0 : sobel0 (maskVal fun a b => front (8 - 1 - a) b) 8 1 ((4 : ℕ) : ℤ) ((0 : ℕ) : ℤ) = -4 := by
      unfold sobel0 ext
      simp only [show reflect 8 (((4 : ℕ) : ℤ) + 1) = 5 by decide, show reflect 8 (((4 : ℕ) : ℤ) - 1) = 3 by decide]
      norm_num [maskVal, front]
    unfold edges
    rw [e0]
    have := sq_nonneg (sobel1 (maskVal fun a b => front (8 - 1 - a) b) 8 1 ((4 : ℕ) : ℤ) ((0 : ℕ) : ℤ))
    exact abs_pos.2 (by nlinarith)
  · rintro ⟨a, b, ha, hb, he⟩
    have hb0 : reflect 1 (((0 : ℕ) : ℤ) - ((2 / 2 : ℕ) : ℤ) + (b : ℤ)) = 0 := r0 _ (by omega)
    rw [hb0] at he
    have hz : ∀ k : ℕ, k = 1 ∨ k = 2 → edges front 8 1 k 0 = 0 := by
      have r8 : reflect 8 0 = 0 ∧ reflect 8 1 = 1 ∧ reflect 8 2 = 2 ∧ reflect 8 3 = 3 := by decide
      have f0 : ∀ a b, a < 4 → maskVal front a b = 0 := by
        intro a b h
        unfold maskVal front
        rw [if_neg (by simpa using h)]
      rintro k (rfl | rfl)
      · unfold edges sobel0 sobel1 ext
        norm_num [r8.1, r8.2.1, r8.2.2.1, r8.2.2.2, f0]
      · unfold edges sobel0 sobel1 ext
        norm_num [r8.1, r8.2.1, r8.2.2.1, r8.2.2.2, f0]
    have hk : reflect 8 (((8 - 1 - 5 : ℕ) : ℤ) - ((2 / 2 : ℕ) : ℤ) + (a : ℤ)) = 1 ∨ reflect 8 (((8 - 1 - 5 : ℕ) : ℤ) - ((2 / 2 : ℕ) : ℤ) + (a : ℤ)) = 2 := by
      have : a = 0 ∨ a = 1 := by omega
      rcases this with rfl | rfl
      · left; decide
      · right; decide
    rw [hz _ hk] at he
    exact lt_irrefl _ he

/-- C191: a larger filter never removes a broadened edge. -/
theorem C191_larger_filter (mask : ℕ → ℕ → Bool) (m n s s' i j : ℕ) (h1 : 1 ≤ s) (hs : s ≤ s') (h2 : s' ≤ 316) (hi : i < m) (hj : j < n)
    (h : smoothedBinary mask m n s 0 i j) : smoothedBinary mask m n s' 0 i j := by
  rw [C67_broadened mask m n s i j h1 (by omega) hi hj] at h
  rw [C67_broadened mask m n s' i j (by omega) h2 hi hj]
  obtain ⟨a, b, ha, hb, he⟩ := h
  have hh : s / 2 ≤ s' / 2 := Nat.div_le_div_right hs
  have hw : s - s / 2 ≤ s' - s' / 2 := by omega
  refine ⟨a + (s' / 2 - s / 2), b + (s' / 2 - s / 2), by omega, by omega, ?_⟩
  have e1 : (i : ℤ) - (s' / 2 : ℕ) + ((a + (s' / 2 - s / 2) : ℕ) : ℤ) = (i : ℤ) - (s / 2 : ℕ) + a := by omega
  have e2 : (j : ℤ) - (s' / 2 : ℕ) + ((b + (s' / 2 - s / 2) : ℕ) : ℤ) = (j : ℤ) - (s / 2 : ℕ) + b := by omega
  rw [e1, e2]
  exact he

/-- C191: a higher threshold never adds a broadened edge. -/
theorem C191_threshold (mask : ℕ → ℕ → Bool) (m n s i j : ℕ) (t t' : ℝ) (ht : t ≤ t') (h : smoothedBinary mask m n s t' i j) : smoothedBinary mask m n s t i j := by
  unfold smoothedBinary at *
  cases hm : fmax (smoothed mask m n s) m n with
  | none => rw [hm] at h; exact h
  | some mx =>
    rw [hm] at h
    simp only at h ⊢
    generalize XR.div (smoothed mask m n s i j) mx = z at h
    cases z with
    | nan => exact h
    | pinf => trivial
    | ninf => exact h
    | fin v => exact lt_of_le_of_lt ht h

example : smoothedBinary front 8 1 3 0 2 0 := by
  have h := C191_violated_even.1
  have := C191_larger_filter (fun a b => front (8 - 1 - a) b) 8 1 2 3 5 0 (by norm_num) (by norm_num) (by norm_num) (by norm_num) (by norm_num) h
  exact (C191_broadened_mirrored_partial front 8 1 3 5 0 (by norm_num) (by decide) (by norm_num) (by norm_num)).1 this

/-! ## C192 -/

theorem quantile_pos {f : ι → ℝ} (p : ι → Prop) (hf : ∀ i, 0 ≤ f i) {q fm : ℝ} (h0 : 0 ≤ q) (h1 : q ≤ 1) (h : quantileLin q (valsOn f p) = some fm) : 0 ≤ fm := by
  rw [quantileLin_eq] at h
  split_ifs at h with hl
  rw [Option.some.injEq] at h
  have hlen : (1 : ℝ) ≤ (valsOn f p).length := by exact_mod_cast List.length_pos_iff.2 hl
  have p0 : 0 ≤ q * (((valsOn f p).length : ℝ) - 1) := mul_nonneg h0 (by linarith)
  have p1 : q * (((valsOn f p).length : ℝ) - 1) ≤ ((valsOn f p).length : ℝ) - 1 := by nlinarith
  have hb := (interp_between hl p0 p1).1
  rw [h] at hb
  refine le_trans ?_ hb
  have := srt_mem (l := valsOn f p) (idx_bounds (List.length_pos_iff.2 hl) p0 p1).1
  obtain ⟨i, -, e⟩ := List.mem_map.1 this
  rw [← e]
  exact hf i

theorem clouds3_antitone {f : ι → ℝ} {fm kt1 : ℝ} (hfm : 0 < fm) (hk : kt1 ≤ 1) {i j : ι} (h : f i ≤ f j) : clouds3 f fm kt1 j ≤ clouds3 f fm kt1 i := by
  unfold clouds3
  have : f i * (1 - kt1) / fm ≤ f j * (1 - kt1) / fm := div_le_div_of_nonneg_right (mul_le_mul_of_nonneg_right h (by linarith)) hfm.le
  exact max_le_max le_rfl (min_le_min le_rfl (by linarith))

/-- C192: with the scaling 'original' larger values of the (nonnegative) random field are darker: of two cloud cells, and of two edge
cells, the one with the larger value never has the larger clear-sky index. -/
theorem C192_original {f : ι → ℝ} (hf : ∀ i, 0 ≤ f i) {clear edge : ι → Bool} {ktmean ktmax kt1 mq : ℝ} (hk : 1 ≤ ktmax) (hk1 : kt1 ≤ 1) (hq0 : 0 ≤ mq) (hq1 : mq ≤ 1)
    {g : ι → Option ℝ} (h : scaleLave f clear edge ktmean ktmax kt1 mq = .ok g) (i j : ι) (hi : clear i = false) (hj : clear j = false) (he : edge i = edge j)
    (hij : f i ≤ f j) (a b : ℝ) (ha : g i = some a) (hb : g j = some b) : b ≤ a := by
  obtain ⟨fm, lo, hi', hne, hqf, hbd, hlo, hhi, hg⟩ := lave_inv h
  have hfm : 0 < fm := lt_of_le_of_ne (quantile_pos _ hf hq0 hq1 hqf) (Ne.symm hne)
  have hanti := clouds3_antitone (kt1 := kt1) hfm hk1 hij
  rw [hg] at ha hb
  simp only [hi, hj, Bool.false_eq_true, if_false] at ha hb
  cases hej : edge j with
  | true =>
    rw [hej] at he hb
    rw [he] at ha
    simp only [if_true] at ha hb
    unfold laveCe at ha hb
    by_cases hlh : hi' = lo
    · rw [if_pos hlh] at ha; cases ha
    · rw [if_neg hlh, Option.some.injEq] at ha hb
      have hlt : lo < hi' := by
        obtain ⟨x, hx⟩ := hlo
        obtain ⟨y, hy⟩ := hhi
        refine lt_of_le_of_ne ?_ (Ne.symm hlh)
        rw [← hx]
        exact (hbd x).2
      rw [← ha, ← hb]
      have : (clouds3 f fm kt1 j - lo) / (hi' - lo) ≤ (clouds3 f fm kt1 i - lo) / (hi' - lo) := div_le_div_of_nonneg_right (by linarith) (by linarith)
      have := mul_le_mul_of_nonneg_right this (by linarith : 0 ≤ ktmax - 1)
      linarith
  | false =>
    rw [hej] at he hb
    rw [he] at ha
    simp only [Bool.false_eq_true, if_false] at ha hb
    revert ha hb
    generalize (Option.map (fun e : ℝ => (Fintype.card ι : ℝ) * ktmean - (count fun i => clear i = true : ℕ) - e)
      (osum (open Classical in Finset.univ.filter fun i => edge i = true ∧ clear i = false) (laveCe (clouds3 f fm kt1) lo hi' ktmax))) = dd
    intro ha hb
    cases dd with
    | none =>
      simp only [Option.some.injEq] at ha hb
      rw [← ha, ← hb]; exact hanti
    | some d =>
      simp only at ha hb
      by_cases hd : 0 < d
      · rw [if_pos hd] at ha hb
        split_ifs at ha hb with h0
        rw [Option.some.injEq] at ha hb
        rw [← ha, ← hb]
        refine mul_le_mul_of_nonneg_left hanti ?_
        refine div_nonneg (div_nonneg hd.le (Nat.cast_nonneg _)) (div_nonneg ?_ (Nat.cast_nonneg _))
        unfold sumOn
        exact Finset.sum_nonneg fun i _ => (clouds3_mem f fm kt1 i).1
      · rw [if_neg hd, Option.some.injEq] at ha hb
        rw [← ha, ← hb]; exact hanti

/-- C192: with the scaling 'basic' larger values are brighter, between the two quantiles; with `flipdistr` they are darker. -/
theorem C192_basic {f : ι → ℝ} {clear edge : ι → Bool} {ktmean ktmax kt1 q : ℝ} (hk : 1 ≤ ktmax) (hk1 : kt1 ≤ 1) {flip : Bool} {cs : Option ℝ}
    {g : ι → ℝ} {w : Bool} (h : scaleBasic f clear edge ktmean ktmax kt1 q flip cs = .ok (g, w)) (lo hi : ℝ) (hlt : lo < hi)
    (hqh : quantileLin q (valsOn f fun i => clear i = false) = some hi) (hql : quantileLin (1 - q) (valsOn f fun i => clear i = false) = some lo)
    (i j : ι) (hi' : clear i = false) (hj : clear j = false) (he : edge i = edge j) (h0 : lo ≤ f i) (hij : f i ≤ f j) (h1 : f j ≤ hi) :
    (flip = false → g i ≤ g j) ∧ (flip = true → g j ≤ g i) := by
  obtain ⟨lo', hi'', -, hqh', hql', -, h2, h3, h4⟩ := basic_inv h
  rw [hqh, Option.some.injEq] at hqh'
  rw [hql, Option.some.injEq] at hql'
  subst hqh'; subst hql'
  have hd : 0 < hi - lo := by linarith
  have val : ∀ k, lo ≤ f k → f k ≤ hi → cloudsFr f lo hi flip k = if flip then 1 - (f k - lo) / (hi - lo) else (f k - lo) / (hi - lo) := by
    intro k hk0 hk1
    have a0 : 0 ≤ (f k - lo) / (hi - lo) := div_nonneg (by linarith) hd.le
    have a1 : (f k - lo) / (hi - lo) ≤ 1 := by rw [div_le_one hd]; linarith
    unfold cloudsFr
    simp only
    rw [if_neg (by linarith : ¬ (f k - lo) / (hi - lo) > 1), if_neg (by linarith : ¬ (f k - lo) / (hi - lo) < 0)]
  have hle : (f i - lo) / (hi - lo) ≤ (f j - lo) / (hi - lo) := div_le_div_of_nonneg_right (by linarith) hd.le
  have mono : ∃ c e : ℝ, 0 ≤ c ∧ g i = cloudsFr f lo hi flip i * c + e ∧ g j = cloudsFr f lo hi flip j * c + e := by
    cases hej : edge j with
    | true =>
      rw [hej] at he
      exact ⟨ktmax - 1, 1, by linarith, h2 i hi' he, h2 j hj hej⟩
    | false =>
      rw [hej] at he
      cases w with
      | true => exact ⟨1 - kt1, kt1, by linarith, h3 rfl i hi' he, h3 rfl j hj hej⟩
      | false =>
        obtain ⟨tgt, t0, t1, -, t2⟩ := h4 rfl
        refine ⟨tgt / sumOn (cloudsFr f lo hi flip) (fun i => clear i = false ∧ edge i = false), kt1, (div_pos t0 (t0.trans t1)).le, ?_, ?_⟩
        · rw [t2 i hi' he]; ring
        · rw [t2 j hj hej]; ring
  obtain ⟨c, e, hc, ei, ej⟩ := mono
  rw [ei, ej, val i h0 (hij.trans h1), val j (h0.trans hij) h1]
  constructor
  · rintro rfl
    simp only [Bool.false_eq_true, if_false]
    have := mul_le_mul_of_nonneg_right hle hc
    linarith
  · rintro rfl
    simp only [if_true]
    have := mul_le_mul_of_nonneg_right hle hc
    nlinarith

/-- The same two cells, scaled in both ways: the first is the brighter one with 'original', the second one with 'basic'. -/
example : (∃ g a b, scaleLave CloudScale.two (fun _ => false) (fun _ => false) 0.5 1.4 0.2 0.99 = .ok g ∧ g 0 = some a ∧ g 1 = some b ∧ b < a) ∧
    ∃ g, scaleBasic CloudScale.two (fun _ => false) (fun _ => false) 0.65 1.4 0.2 0.999 false none = .ok (g, false) ∧ g 0 ≤ g 1 := by
  constructor
  · refine ⟨_, _, _, CloudScale.two_lave 0.5 (by norm_num), rfl, rfl, ?_⟩
    norm_num [clouds3, CloudScale.two]
  · obtain ⟨g, h, -⟩ := CloudScale.C69_violated_above_one
    refine ⟨g, h, ?_⟩
    obtain ⟨lo, hi, -, hqh, hql, -, -, -, h4⟩ := basic_inv h
    rw [CloudScale.two_quantile 0.999 (by norm_num) (by norm_num), Option.some.injEq] at hqh
    rw [CloudScale.two_quantile (1 - 0.999) (by norm_num) (by norm_num), Option.some.injEq] at hql
    subst hqh; subst hql
    obtain ⟨tgt, t0, t1, -, t2⟩ := h4 rfl
    rw [t2 0 rfl rfl, t2 1 rfl rfl, CloudScale.two_fr.1, CloudScale.two_fr.2]
    have := (div_pos t0 (t0.trans t1)).le
    rw [mul_div_assoc, mul_div_assoc]
    exact add_le_add (mul_le_mul_of_nonneg_right (by norm_num) this) le_rfl

/-! ## C193 -/

theorem quantile_affine {a : ℝ} (ha : 0 < a) (b : ℝ) {q : ℝ} (h0 : 0 ≤ q) (h1 : q ≤ 1) (l : List ℝ) :
    quantileLin q (l.map fun x => a * x + b) = (quantileLin q l).map fun x : ℝ => a * x + b := by
  rw [quantileLin_eq, quantileLin_eq]
  by_cases hl : l = []
  · subst hl; rfl
  · rw [if_neg hl, if_neg (by simpa using hl), Option.map_some, Option.some.injEq, List.length_map]
    have hlen : (1 : ℝ) ≤ l.length := by exact_mod_cast List.length_pos_iff.2 hl
    have p0 : 0 ≤ q * ((l.length : ℝ) - 1) := mul_nonneg h0 (by linarith)
    have p1 : q * ((l.length : ℝ) - 1) ≤ (l.length : ℝ) - 1 := by nlinarith
    obtain ⟨k1, k2, -⟩ := idx_bounds (List.length_pos_iff.2 hl) p0 p1
    have hm : StrictMono fun x : ℝ => a * x + b := fun x y h => by simp only; nlinarith
    unfold interpAt
    rw [srt_map hm, getD_map _ _ (by rw [srt_length]; exact k1), getD_map _ _ (by rw [srt_length]; exact k2)]
    ring

theorem valsOn_comp (f : ι → ℝ) (g : ℝ → ℝ) (p : ι → Prop) : valsOn (fun i => g (f i)) p = (valsOn f p).map g := by
  unfold valsOn; rw [List.map_map]; rfl

/-- C193: the scaling 'basic' depends neither on the level nor on the unit of the random field. -/
theorem C193_basic (f : ι → ℝ) (clear edge : ι → Bool) (ktmean ktmax kt1 q : ℝ) (h0 : 0 ≤ q) (h1 : q ≤ 1) (flip : Bool) (cs : Option ℝ) (a b : ℝ) (ha : 0 < a) :
    scaleBasic (fun i => a * f i + b) clear edge ktmean ktmax kt1 q flip cs = scaleBasic f clear edge ktmean ktmax kt1 q flip cs := by
  unfold scaleBasic
  rw [valsOn_comp f (fun x => a * x + b), quantile_affine ha b h0 h1, quantile_affine ha b (by linarith) (by linarith)]
  cases hq : quantileLin q (valsOn f fun i => clear i = false) with
  | none => rfl
  | some hi =>
    cases hq' : quantileLin (1 - q) (valsOn f fun i => clear i = false) with
    | none => rfl
    | some lo =>
      simp only [Option.map_some]
      by_cases he : hi = lo
      · rw [if_pos he, if_pos (by rw [he])]
      · have he' : ¬ a * hi + b = a * lo + b := fun h => he (by have := mul_left_cancel₀ ha.ne' (by linarith : a * hi = a * lo); exact this)
        have hfr : cloudsFr (fun i => a * f i + b) (a * lo + b) (a * hi + b) flip = cloudsFr f lo hi flip := by
          funext i
          have : (a * f i + b - (a * lo + b)) / (a * hi + b - (a * lo + b)) = (f i - lo) / (hi - lo) := by
            rw [show a * f i + b - (a * lo + b) = a * (f i - lo) by ring, show a * hi + b - (a * lo + b) = a * (hi - lo) by ring, mul_div_mul_left _ _ ha.ne']
          unfold cloudsFr
          simp only [this]
        rw [if_neg he, if_neg he', hfr]

/-- C193: the scaling 'original' does not depend on the unit of the random field. -/
theorem C193_original (f : ι → ℝ) (clear edge : ι → Bool) (ktmean ktmax kt1 mq : ℝ) (h0 : 0 ≤ mq) (h1 : mq ≤ 1) (a : ℝ) (ha : 0 < a) :
    scaleLave (fun i => a * f i) clear edge ktmean ktmax kt1 mq = scaleLave f clear edge ktmean ktmax kt1 mq := by
  have hv : valsOn (fun i => a * f i) (fun i => clear i = false) = (valsOn f fun i => clear i = false).map fun x => a * x + 0 := by
    rw [valsOn_comp f (fun x => a * x)]; simp
  unfold scaleLave
  rw [hv, quantile_affine ha 0 h0 h1]
  cases hq : quantileLin mq (valsOn f fun i => clear i = false) with
  | none => rfl
  | some fm =>
    simp only [Option.map_some, add_zero]
    by_cases he : fm = 0
    · rw [if_pos he, if_pos (by rw [he, mul_zero])]
    · have h3 : clouds3 (fun i => a * f i) (a * fm) kt1 = clouds3 f fm kt1 := by
        funext i
        unfold clouds3
        rw [mul_assoc, mul_div_mul_left _ _ ha.ne']
      rw [if_neg he, if_neg (mul_ne_zero ha.ne' he), h3]

theorem stackSum_scale (R : ℕ → ℕ → ℕ → ℝ) (weights : List ℝ) (scales : List ℤ) (m n : ℕ) (c : ℝ) (hl : weights.length = scales.length) (i j : ℕ) :
    stackSum R (weights.map fun w => c * w) scales m n i j = c * stackSum R weights scales m n i j := by
  unfold stackSum
  rw [← List.sum_map_mul_left]
  congr 1
  refine List.map_congr_left fun k hk => ?_
  rw [getD_map _ _ (by rw [hl]; exact List.mem_range.1 hk)]
  ring

theorem stackField_raw (R : ℕ → ℕ → ℕ → ℝ) (weights : List ℝ) (scales : List ℤ) (m n : ℕ) :
    stackField R weights scales m n false = if weights.length ≠ scales.length then .error .valueError else .ok (stackSum R weights scales m n) := by
  unfold stackField; simp

/-- C193: multiplying all the weights by the same positive number does not change the generated field (same random numbers). -/
theorem C193_weights (R1 R2 : ℕ → ℕ → ℕ → ℝ) (weights : List ℝ) (scales : List ℤ) (m n : ℕ) (hm : 0 < m) (hn : 0 < n) (fracClear ktmean ktmax kt1 : ℝ) (scaling : String) (s : ℕ)
    (c : ℝ) (hc : 0 < c) :
    cloudfield R1 R2 (weights.map fun w => c * w) scales m n fracClear ktmean ktmax kt1 scaling s = cloudfield R1 R2 weights scales m n fracClear ktmean ktmax kt1 scaling s := by
  haveI : Nonempty (Fin m × Fin n) := ⟨(⟨0, hm⟩, ⟨0, hn⟩)⟩
  unfold cloudfield
  rw [stackField_raw, stackField_raw, stackField_raw, stackField_raw, List.length_map]
  by_cases hl : weights.length = scales.length
  · rw [if_neg (by simpa using hl), if_neg (by simpa using hl), if_neg (by simpa using hl), if_neg (by simpa using hl)]
    have e : ∀ R : ℕ → ℕ → ℕ → ℝ, stackSum R (weights.map fun w => c * w) scales m n = fun i j => c * stackSum R weights scales m n i j :=
      fun R => funext fun i => funext fun j => stackSum_scale R weights scales m n c hl i j
    rw [e, e]
    simp only [bind, Except.bind]
    rw [C190_rescaled (fun p : Fin m × Fin n => stackSum R2 weights scales m n p.1 p.2) (fun x => c * x) (fun x y h => by simp only; nlinarith)]
    cases clearMask (fun p : Fin m × Fin n => stackSum R2 weights scales m n p.1 p.2) fracClear with
    | error e => rfl
    | ok mask =>
      simp only
      by_cases h1 : scaling = "original"
      · rw [if_pos h1, if_pos h1]
        exact C193_original (fun p : Fin m × Fin n => stackSum R1 weights scales m n p.1 p.2) _ _ _ _ _ _ (by norm_num) (by norm_num) c hc
      · rw [if_neg h1, if_neg h1]
        by_cases h2 : scaling = "basic"
        · rw [if_pos h2, if_pos h2]
          have := C193_basic (fun p : Fin m × Fin n => stackSum R1 weights scales m n p.1 p.2) mask
            (fun p => open Classical in decide (smoothedBinary (fun i j => if h : i < m ∧ j < n then mask (⟨i, h.1⟩, ⟨j, h.2⟩) else false) m n s 0 p.1 p.2))
            ktmean ktmax kt1 0.999 (by norm_num) (by norm_num) false none c 0 hc
          simp only [add_zero] at this
          rw [this]
        · rw [if_neg h2, if_neg h2]
  · simp [hl, bind, Except.bind]

/-- C193: normalising the stacked field first (`normalize=True`) changes neither the clear mask nor the 'basic' scaling. -/
theorem C193_normalised (R : ℕ → ℕ → ℕ → ℝ) (weights : List ℝ) (scales : List ℤ) (m n : ℕ) (hm : 0 < m) (hn : 0 < n) (f g : ℕ → ℕ → ℝ)
    (hf : stackField R weights scales m n false = .ok f) (hg : stackField R weights scales m n true = .ok g) :
    (∀ q, clearMask (fun p : Fin m × Fin n => g p.1 p.2) q = clearMask (fun p : Fin m × Fin n => f p.1 p.2) q) ∧
    ∀ (clear edge : Fin m × Fin n → Bool) (ktmean ktmax kt1 q : ℝ) (flip : Bool) (cs : Option ℝ), 0 ≤ q → q ≤ 1 →
      scaleBasic (fun p => g p.1 p.2) clear edge ktmean ktmax kt1 q flip cs = scaleBasic (fun p => f p.1 p.2) clear edge ktmean ktmax kt1 q flip cs := by
  haveI : Nonempty (Fin m × Fin n) := ⟨(⟨0, hm⟩, ⟨0, hn⟩)⟩
  obtain ⟨a, b, ha, hab⟩ : ∃ a b : ℝ, 0 < a ∧ ∀ i < m, ∀ j < n, g i j = a * f i j + b := by
    by_cases hl : weights.length = scales.length
    swap
    · unfold stackField at hf
      rw [if_pos hl] at hf
      cases hf
    rw [stackField_raw, if_neg (by simpa using hl), Except.ok.injEq] at hf
    unfold stackField at hg
    rw [if_neg (by simpa using hl)] at hg
    simp only [Bool.true_eq_false, if_false] at hg
    obtain ⟨hi, hhi⟩ := fmax_exists (stackSum R weights scales m n) hm hn
    obtain ⟨lo, hlo⟩ := fmin_exists (stackSum R weights scales m n) hm hn
    obtain ⟨⟨i1, j1, hi1, hj1, he1⟩, hmax⟩ := fmax_some.1 hhi
    obtain ⟨-, hmin⟩ := fmin_some.1 hlo
    rw [hhi, hlo] at hg
    simp only at hg
    split_ifs at hg with hc
    rw [Except.ok.injEq] at hg
    have hlt : lo < hi := lt_of_le_of_ne (he1 ▸ hmin i1 j1 hi1 hj1) (fun h => hc h.symm)
    refine ⟨1 / (hi - lo), -lo / (hi - lo), one_div_pos.2 (by linarith), fun i _ j _ => ?_⟩
    rw [← hf, ← hg]
    ring
  have e : (fun p : Fin m × Fin n => g p.1 p.2) = fun p : Fin m × Fin n => a * f p.1 p.2 + b := funext fun p => hab _ p.1.2 _ p.2.2
  refine ⟨fun q => ?_, fun clear edge ktmean ktmax kt1 q flip cs h0 h1 => ?_⟩
  · rw [e]
    exact C190_rescaled (fun p : Fin m × Fin n => f p.1 p.2) (fun x => a * x + b) (fun x y h => by simp only; nlinarith) q
  · rw [e]
    exact C193_basic (fun p : Fin m × Fin n => f p.1 p.2) clear edge ktmean ktmax kt1 q h0 h1 flip cs a b ha

theorem srt_neg (l : List ℝ) {k : ℕ} (hk : k < l.length) : (srt (l.map fun x => -x)).getD k 0 = -(srt l).getD (l.length - 1 - k) 0 := by
  have e : srt (l.map fun x => -x) = ((srt l).map fun x => -x).reverse := by
    refine srt_eq_of_perm ?_ ?_
    · exact ((srt_perm l).symm.map _).trans (List.reverse_perm _).symm
    · rw [List.pairwise_reverse, List.pairwise_map]
      exact (List.pairwise_insertionSort (· ≤ ·) l).imp fun h => neg_le_neg h
  rw [e, List.getD_eq_getElem _ _ (by simpa [srt_length] using hk), List.getElem_reverse, List.getElem_map,
    List.getD_eq_getElem _ _ (by rw [srt_length]; omega)]
  simp [srt_length]

theorem quantile_neg {q : ℝ} (h0 : 0 ≤ q) (h1 : q ≤ 1) (l : List ℝ) : quantileLin q (l.map fun x => -x) = (quantileLin (1 - q) l).map fun x : ℝ => -x := by
  rw [quantileLin_eq, quantileLin_eq]
  by_cases hl : l = []
  · subst hl; rfl
  · rw [if_neg hl, if_neg (by simpa using hl), Option.map_some, Option.some.injEq, List.length_map]
    have hpos := List.length_pos_iff.2 hl
    have hlen : (1 : ℝ) ≤ l.length := by exact_mod_cast hpos
    have p0 : 0 ≤ q * ((l.length : ℝ) - 1) := mul_nonneg h0 (by linarith)
    have p1 : q * ((l.length : ℝ) - 1) ≤ (l.length : ℝ) - 1 := by nlinarith
    obtain ⟨k1, k2, -⟩ := idx_bounds hpos p0 p1
    have ep : (1 - q) * ((l.length : ℝ) - 1) = ((l.length - 1 : ℤ) : ℝ) + -(q * ((l.length : ℝ) - 1)) := by push_cast; ring
    generalize q * ((l.length : ℝ) - 1) = p at *
    have f0 : 0 ≤ ⌊p⌋ := Int.floor_nonneg.2 p0
    have c0 : ⌊p⌋ ≤ ⌈p⌉ := Int.floor_le_ceil p
    have i1 : ((l.length : ℤ) - 1 + -⌈p⌉).toNat = l.length - 1 - ⌈p⌉.toNat := by omega
    have i2 : ((l.length : ℤ) - 1 + -⌊p⌋).toNat = l.length - 1 - ⌊p⌋.toNat := by omega
    unfold interpAt
    rw [srt_neg l k1, srt_neg l k2, ep, Int.floor_intCast_add, Int.ceil_intCast_add, Int.floor_neg, Int.ceil_neg, i1, i2]
    push_cast
    by_cases hi : (⌊p⌋ : ℝ) = p
    · have : ⌈p⌉ = ⌊p⌋ := by rw [← hi]; simp
      rw [this, ← hi]
      simp
    · have hc : (⌈p⌉ : ℝ) = ⌊p⌋ + 1 := by
        have : ⌈p⌉ = ⌊p⌋ + 1 := by
          refine le_antisymm (Int.ceil_le_floor_add_one p) ?_
          rw [Int.add_one_le_iff, Int.lt_ceil]
          exact lt_of_le_of_ne (Int.floor_le p) hi
        rw [this]; push_cast; ring
      rw [hc]
      ring

/-- C193: `flipdistr` is the change of sign of the random field (for fields that stay within one quantile range of the range). -/
theorem C193_flip (f : ι → ℝ) (clear edge : ι → Bool) (ktmean ktmax kt1 q : ℝ) (h0 : 0 ≤ q) (h1 : q ≤ 1) (flip : Bool) (cs : Option ℝ) (lo hi : ℝ) (hlt : lo < hi)
    (hqh : quantileLin q (valsOn f fun i => clear i = false) = some hi) (hql : quantileLin (1 - q) (valsOn f fun i => clear i = false) = some lo)
    (hf : ∀ i, lo - (hi - lo) ≤ f i ∧ f i ≤ hi + (hi - lo)) :
    scaleBasic (fun i => -f i) clear edge ktmean ktmax kt1 q (!flip) cs = scaleBasic f clear edge ktmean ktmax kt1 q flip cs := by
  unfold scaleBasic
  rw [valsOn_comp f (fun x => -x), quantile_neg h0 h1, quantile_neg (by linarith) (by linarith), sub_sub_cancel, hqh, hql]
  simp only [Option.map_some]
  have hd : 0 < hi - lo := by linarith
  have hfr : cloudsFr (fun i => -f i) (-hi) (-lo) (!flip) = cloudsFr f lo hi flip := by
    funext i
    obtain ⟨b0, b1⟩ := hf i
    have e : (-f i - -hi) / (-lo - -hi) = 1 - (f i - lo) / (hi - lo) := by
      rw [eq_sub_iff_add_eq, show -lo - -hi = hi - lo by ring, ← add_div, div_eq_one_iff_eq hd.ne']; ring
    have a0 : -1 ≤ (f i - lo) / (hi - lo) := by rw [le_div_iff₀ hd]; linarith
    have a1 : (f i - lo) / (hi - lo) ≤ 2 := by rw [div_le_iff₀ hd]; linarith
    unfold cloudsFr
    simp only [e]
    generalize (f i - lo) / (hi - lo) = a at *
    cases flip <;> simp only [Bool.not_true, Bool.not_false, if_true, Bool.false_eq_true, if_false] <;> split_ifs <;> linarith
  rw [hfr, if_neg (by linarith : ¬ hi = lo), if_neg (by intro h; linarith)]

/-- The two cells again: the quantiles of the field, its range, and two equivalent sets of weights. -/
example : (∃ lo hi, lo < hi ∧ quantileLin 0.999 (valsOn CloudScale.two fun i => (fun _ => false : Fin 2 → Bool) i = false) = some hi ∧
      quantileLin (1 - 0.999) (valsOn CloudScale.two fun i => (fun _ => false : Fin 2 → Bool) i = false) = some lo ∧
      ∀ i, lo - (hi - lo) ≤ CloudScale.two i ∧ CloudScale.two i ≤ hi + (hi - lo)) ∧
    [0.2, 0.8].map (fun w : ℝ => 5 * w) = [1, 4] := by
  refine ⟨⟨1 - 0.999, 0.999, by norm_num, CloudScale.two_quantile 0.999 (by norm_num) (by norm_num),
    CloudScale.two_quantile (1 - 0.999) (by norm_num) (by norm_num), fun i => ?_⟩, by norm_num⟩
  fin_cases i <;> norm_num [CloudScale.two]

/-! ## C194 -/

/-- C194 (the documentation: `pixres` is the resolution of the field in seconds) is violated: the argument is ignored, whatever its value. -/
theorem C194_violated_ignored (pos : ℝ × ℝ) (f : ℕ → ℕ → ℝ) (m n : ℕ) (speed duration p p' : ℝ) :
    getPositionalTs pos f m n speed duration p = getPositionalTs pos f m n speed duration p' := rfl

/-- C194: a field of 10 s per cell, read for 20 s at the corner with clouds of 1 m/s: 21 cells come back, covering 210 s, instead of the 3
cells of 0, 10 and 20 s. -/
theorem C194_violated_duration (f : ℕ → ℕ → ℝ) : getPositionalTs (0, 0) f 100 100 1 20 10 = .ok ((List.range 21).map fun k => f k 0) := by
  have := CloudTs.ts_eq f 100 100 (0, 0) 1 20 one_pos le_rfl le_rfl (by norm_num) (by norm_num)
  unfold getPositionalTs
  simp only
  rw [this]
  norm_num
  rfl

/-- C194, the part that holds: for a field of one cell per second, sample `t` of the series is the cell that passes the position after `t`
seconds: the cell of the point `speed · t` further along the first axis. -/
theorem C194_second_partial (pos : ℝ × ℝ) (f : ℕ → ℕ → ℝ) (m n : ℕ) (speed : ℝ) (duration : ℕ) (hs : 0 < speed) (h0 : 0 ≤ pos.1) (h1 : 0 ≤ pos.2)
    (hn : pos.2 < speed * n) (hm : pos.1 + speed * duration < speed * m) :
    ∃ ts, getPositionalTs pos f m n speed duration 1 = .ok ts ∧ ts.length = duration + 1 ∧
      ∀ t ≤ duration, ts[t]? = some (f ⌊(pos.1 + speed * t) / speed⌋.toNat ⌊pos.2 / speed⌋.toNat) := by
  have e : ∀ t : ℕ, (pos.1 + speed * t) / speed = pos.1 / speed + t := fun t => by field_simp
  have fx : 0 ≤ ⌊pos.1 / speed⌋ := Int.floor_nonneg.2 (div_nonneg h0 hs.le)
  have hyn : ⌊pos.2 / speed⌋ < n := by
    rw [Int.floor_lt]
    rw [div_lt_iff₀ hs]
    push_cast
    linarith
  have hxm : ⌊pos.1 / speed⌋ + duration < m := by
    rw [← Int.floor_add_natCast, Int.floor_lt, ← e, div_lt_iff₀ hs]
    push_cast
    linarith
  refine ⟨_, CloudTs.ts_eq f m n pos speed duration hs h0 h1 hyn (Nat.cast_nonneg _), ?_, ?_⟩
  · simp only [List.length_map, List.length_range, Int.floor_natCast]
    omega
  · intro t ht
    rw [e, Int.floor_add_natCast]
    simp only [Int.floor_natCast]
    rw [List.getElem?_map, List.getElem?_range (by omega), Option.map_some]
    congr 2
    omega

/-- A point in the middle of a field of 100 by 50 cells, read for 60 seconds with clouds of 10 m/s. -/
example : (0 : ℝ) < 10 ∧ (0 : ℝ) ≤ 35 ∧ (0 : ℝ) ≤ 200 ∧ (200 : ℝ) < 10 * (50 : ℕ) ∧ (35 : ℝ) + 10 * (60 : ℕ) < 10 * (100 : ℕ) := by norm_num

end SST.Props.CloudMore
