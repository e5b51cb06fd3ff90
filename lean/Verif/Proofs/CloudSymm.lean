import Verif.Props.CloudMore

/-! # Rearranged cloud fields -/

namespace SST.Cloud
open SST SST.Stats SST.Props.CloudMask SST.Props.CloudMore

/-! ## Scaling of a rearranged field -/

section rearranged
variable {ι κ : Type} [Fintype ι] [Fintype κ]

theorem vals_rearr (f : ι → ℝ) (e : κ ≃ ι) : (vals fun k => f (e k)).Perm (vals f) := by
  have : (vals fun k => f (e k)) = ((Finset.univ : Finset κ).toList.map e).map f := by unfold vals; rw [List.map_map]; rfl
  rw [this]
  unfold vals
  refine List.Perm.map _ ?_
  rw [List.perm_ext_iff_of_nodup ((Finset.nodup_toList _).map e.injective) (Finset.nodup_toList _)]
  intro a
  simp only [List.mem_map, Finset.mem_toList, Finset.mem_univ, true_and, iff_true]
  exact ⟨e.symm a, by simp⟩

theorem valsOn_rearr (f : ι → ℝ) (p : ι → Prop) (e : κ ≃ ι) : (valsOn (fun k => f (e k)) fun k => p (e k)).Perm (valsOn f p) := by
  classical
  have : (valsOn (fun k => f (e k)) fun k => p (e k)) =
      ((@Finset.filter κ (fun k => p (e k)) (fun _ => Classical.propDecidable _) Finset.univ).toList.map e).map f := by
    unfold valsOn; rw [List.map_map]; rfl
  rw [this]
  unfold valsOn
  refine List.Perm.map _ ?_
  rw [List.perm_ext_iff_of_nodup ((Finset.nodup_toList _).map e.injective) (Finset.nodup_toList _)]
  intro a
  simp only [List.mem_map, Finset.mem_toList, Finset.mem_filter, Finset.mem_univ, true_and]
  constructor
  · rintro ⟨k, hk, rfl⟩
    exact hk
  · intro h
    exact ⟨e.symm a, by simpa using h, by simp⟩

theorem quantile_perm (q : ℝ) {l s : List ℝ} (h : l.Perm s) : quantileLin q l = quantileLin q s := by
  have hsrt : srt l = srt s := srt_eq_of_perm (h.trans (srt_perm _).symm) (List.pairwise_insertionSort _ _)
  unfold srt at hsrt
  unfold quantileLin
  rw [hsrt]

theorem omax_perm {l s : List (Option ℝ)} (h : l.Perm s) : omax l = omax s := by
  have hp : (l.filterMap id).Perm (s.filterMap id) := h.filterMap _
  cases hs : omax s with
  | none => rw [omax_eq_none] at hs ⊢; rw [hs] at hp; exact hp.eq_nil
  | some v =>
    rw [omax_eq_some] at hs ⊢
    exact ⟨hp.mem_iff.2 hs.1, fun u hu => hs.2 u (hp.mem_iff.1 hu)⟩

theorem count_rearr (p : ι → Prop) (e : κ ≃ ι) : count (fun k => p (e k)) = count p := by
  classical
  unfold count
  apply Finset.card_bij (fun k _ => e k)
  · intro a ha; simpa using ha
  · intro a _ b _ h; exact e.injective h
  · intro b hb; exact ⟨e.symm b, by simpa using hb, by simp⟩

theorem sumOn_rearr (f : ι → ℝ) (p : ι → Prop) (e : κ ≃ ι) : sumOn (fun k => f (e k)) (fun k => p (e k)) = sumOn f p := by
  classical
  unfold sumOn
  apply Finset.sum_bij (fun k _ => e k)
  · intro a ha; simpa using ha
  · intro a _ b _ h; exact e.injective h
  · intro b hb; exact ⟨e.symm b, by simpa using hb, by simp⟩
  · intro a _; rfl

theorem osum_rearr (f : ι → Option ℝ) (p : ι → Prop) [DecidablePred p] (e : κ ≃ ι) [DecidablePred fun k => p (e k)] :
    osum (Finset.univ.filter fun k => p (e k)) (fun k => f (e k)) = osum (Finset.univ.filter p) f := by
  have hs : ∑ k ∈ Finset.univ.filter (fun k => p (e k)), (f (e k)).getD 0 = ∑ i ∈ Finset.univ.filter p, (f i).getD 0 := by
    apply Finset.sum_bij (fun k _ => e k)
    · intro a ha; simpa using ha
    · intro a _ b _ h; exact e.injective h
    · intro b hb; exact ⟨e.symm b, by simpa using hb, by simp⟩
    · intro a _; rfl
  have hc : (∀ k ∈ Finset.univ.filter (fun k => p (e k)), (f (e k)).isSome) ↔ ∀ i ∈ Finset.univ.filter p, (f i).isSome := by
    simp only [Finset.mem_filter, Finset.mem_univ, true_and]
    constructor
    · intro h i hi
      have := h (e.symm i) (by simpa using hi)
      simpa using this
    · intro h k hk
      exact h _ hk
  unfold osum
  rw [hs]
  by_cases h : ∀ i ∈ Finset.univ.filter p, (f i).isSome
  · rw [if_pos h, if_pos (hc.2 h)]
  · rw [if_neg h, if_neg fun h' => h (hc.1 h')]

theorem scaleLave_rearr (f : ι → ℝ) (clear edge : ι → Bool) (ktmean ktmax kt1 mq : ℝ) (e : κ ≃ ι) :
    scaleLave (fun k => f (e k)) (fun k => clear (e k)) (fun k => edge (e k)) ktmean ktmax kt1 mq =
      (scaleLave f clear edge ktmean ktmax kt1 mq).map fun g k => g (e k) := by
  classical
  unfold scaleLave
  rw [quantile_perm mq (valsOn_rearr f (fun i => clear i = false) e)]
  cases quantileLin mq (valsOn f fun i => clear i = false) with
  | none => rfl
  | some fm =>
    simp only
    by_cases hfm : fm = 0
    · rw [if_pos hfm, if_pos hfm]; rfl
    rw [if_neg hfm, if_neg hfm]
    have hc3 : clouds3 (fun k => f (e k)) fm kt1 = fun k => clouds3 f fm kt1 (e k) := rfl
    rw [hc3, omax_perm ((vals_rearr (clouds3 f fm kt1) e).map some), omax_perm ((vals_rearr (fun i => -clouds3 f fm kt1 i) e).map some)]
    cases omax ((vals (clouds3 f fm kt1)).map some) with
    | none => rfl
    | some hi =>
      cases omax ((vals fun i => -clouds3 f fm kt1 i).map some) with
      | none => rfl
      | some lo =>
        simp only [Option.map_some]
        have hce : laveCe (fun k => clouds3 f fm kt1 (e k)) (-lo) hi ktmax = fun k => laveCe (clouds3 f fm kt1) (-lo) hi ktmax (e k) := rfl
        have ho := osum_rearr (laveCe (clouds3 f fm kt1) (-lo) hi ktmax) (fun i => edge i = true ∧ clear i = false) e
        have hn1 := count_rearr (fun i => clear i = true) e
        have hn2 := count_rearr (fun i => clear i = false ∧ edge i = false) e
        have hs := sumOn_rearr (clouds3 f fm kt1) (fun i => clear i = false ∧ edge i = false) e
        simp only [hce]
        rw [ho, hn1, hn2, hs, Fintype.card_congr e]
        rfl

theorem scaleBasic_rearr (f : ι → ℝ) (clear edge : ι → Bool) (ktmean ktmax kt1 q : ℝ) (flip : Bool) (cs : Option ℝ) (e : κ ≃ ι) :
    scaleBasic (fun k => f (e k)) (fun k => clear (e k)) (fun k => edge (e k)) ktmean ktmax kt1 q flip cs =
      (scaleBasic f clear edge ktmean ktmax kt1 q flip cs).map fun r => (fun k => r.1 (e k), r.2) := by
  classical
  unfold scaleBasic
  rw [quantile_perm q (valsOn_rearr f (fun i => clear i = false) e), quantile_perm (1 - q) (valsOn_rearr f (fun i => clear i = false) e)]
  cases quantileLin q (valsOn f fun i => clear i = false) with
  | none => rfl
  | some hi =>
    cases quantileLin (1 - q) (valsOn f fun i => clear i = false) with
    | none => rfl
    | some lo =>
      simp only
      by_cases h : hi = lo
      · rw [if_pos h, if_pos h]; rfl
      rw [if_neg h, if_neg h]
      have hfr : cloudsFr (fun k => f (e k)) lo hi flip = fun k => cloudsFr f lo hi flip (e k) := rfl
      have hb : basicBase (fun k => cloudsFr f lo hi flip (e k)) (fun k => clear (e k)) (fun k => edge (e k)) ktmax cs =
        fun k => basicBase (cloudsFr f lo hi flip) clear edge ktmax cs (e k) := rfl
      have hsum := Equiv.sum_comp e (basicBase (cloudsFr f lo hi flip) clear edge ktmax cs)
      have hn2 := count_rearr (fun i => clear i = false ∧ edge i = false) e
      have hs := sumOn_rearr (cloudsFr f lo hi flip) (fun i => clear i = false ∧ edge i = false) e
      simp only [hfr, hb]
      rw [hsum, hn2, hs, Fintype.card_congr e]
      split_ifs <;> rfl

end rearranged

/-! ## Edges of a rearranged mask -/

/-- A mask on the cells of a field, continued by false. -/
def maskExt {m n : ℕ} (mask : Fin m × Fin n → Bool) (i j : ℕ) : Bool := if h : i < m ∧ j < n then mask (⟨i, h.1⟩, ⟨j, h.2⟩) else false

theorem edges_congr {mask mask' : ℕ → ℕ → Bool} {m n : ℕ} (hm : 0 < m) (hn : 0 < n) (h : ∀ a b, a < m → b < n → mask a b = mask' a b) (i j : ℕ) :
    edges mask m n i j = edges mask' m n i j := by
  have e : ∀ a b : ℤ, ext (maskVal mask) m n a b = ext (maskVal mask') m n a b := by
    intro a b
    unfold ext maskVal
    rw [h _ _ (reflect_lt hm a) (reflect_lt hn b)]
  unfold edges sobel0 sobel1
  simp only [e]

theorem smoothed_congr {mask mask' : ℕ → ℕ → Bool} {m n : ℕ} (hm : 0 < m) (hn : 0 < n) (h : ∀ a b, a < m → b < n → mask a b = mask' a b) (s : ℕ) :
    smoothed mask m n s = smoothed mask' m n s := by
  have e : edges mask m n = edges mask' m n := funext fun i => funext fun j => edges_congr hm hn h i j
  unfold smoothed
  rw [e]

theorem cells_sum (s : ℕ) (g : ℕ → ℕ → ℝ) : ((cells s s).map fun c => g c.1 c.2).sum = ∑ a ∈ Finset.range s, ∑ b ∈ Finset.range s, g a b := by
  unfold cells
  rw [List.map_flatMap]
  simp only [List.map_map, Function.comp_def]
  have : ∀ l : List ℕ, (l.flatMap fun i => (List.range s).map fun j => g i j).sum = (l.map fun i => ∑ b ∈ Finset.range s, g i b).sum := by
    intro l
    induction l with
    | nil => simp
    | cons a l ih =>
      rw [List.flatMap_cons, List.sum_append, ih, List.map_cons, List.sum_cons, ← List.sum_toFinset _ List.nodup_range, List.toFinset_range]
  rw [this, ← List.sum_toFinset _ List.nodup_range, List.toFinset_range]

theorem smoothed_transposed (mask : ℕ → ℕ → Bool) (m n s i j : ℕ) : smoothed (fun a b => mask b a) n m s j i = smoothed mask m n s i j := by
  have e : uniformFilter (edges (fun a b => mask b a) n m) n m s j i = uniformFilter (edges mask m n) m n s i j := by
    rcases Nat.eq_zero_or_pos s with rfl | hs
    · exact C191_transposed mask m n i j
    unfold uniformFilter
    rw [if_neg hs.ne', if_neg hs.ne', cells_sum s fun a b => ext (edges (fun a b => mask b a) n m) n m ((j : ℤ) - (s / 2 : ℕ) + a) ((i : ℤ) - (s / 2 : ℕ) + b),
      cells_sum s fun a b => ext (edges mask m n) m n ((i : ℤ) - (s / 2 : ℕ) + a) ((j : ℤ) - (s / 2 : ℕ) + b), Finset.sum_comm]
    congr 1
    refine Finset.sum_congr rfl fun a _ => Finset.sum_congr rfl fun b _ => ?_
    unfold ext
    exact C191_transposed mask m n _ _
  unfold smoothed
  rw [e]

theorem smoothed_mirrored (mask : ℕ → ℕ → Bool) (m n s i j : ℕ) (hodd : Odd s) (hi : i < m) :
    smoothed (fun a b => mask (m - 1 - a) b) m n s i j = smoothed mask m n s (m - 1 - i) j := by
  obtain ⟨r, hr⟩ := hodd
  have hm : 0 < m := by omega
  have e : uniformFilter (edges (fun a b => mask (m - 1 - a) b) m n) m n s i j = uniformFilter (edges mask m n) m n s (m - 1 - i) j := by
    unfold uniformFilter
    rw [if_neg (by omega), if_neg (by omega), cells_sum s fun a b => ext (edges (fun a b => mask (m - 1 - a) b) m n) m n ((i : ℤ) - (s / 2 : ℕ) + a) ((j : ℤ) - (s / 2 : ℕ) + b),
      cells_sum s fun a b => ext (edges mask m n) m n (((m - 1 - i : ℕ) : ℤ) - (s / 2 : ℕ) + a) ((j : ℤ) - (s / 2 : ℕ) + b)]
    congr 1
    rw [← Finset.sum_range_reflect]
    refine Finset.sum_congr rfl fun a ha => Finset.sum_congr rfl fun b _ => ?_
    have ha := Finset.mem_range.1 ha
    unfold ext
    rw [C191_mirrored mask m n _ _ (reflect_lt hm _), ← reflect_mirror hm]
    congr 2
    omega
  unfold smoothed
  rw [e]

theorem flatMap_nil' (l : List ℕ) : l.flatMap (fun _ => ([] : List (ℕ × ℕ))) = [] := by
  induction l with
  | nil => rfl
  | cons a l ih => simp [ih]

theorem fmax_transposed {f g : ℕ → ℕ → ℝ} {m n : ℕ} (h : ∀ i j, i < m → j < n → g j i = f i j) : fmax g n m = fmax f m n := by
  rcases Nat.eq_zero_or_pos m with rfl | hm
  · unfold fmax cells; simp [flatMap_nil']
  rcases Nat.eq_zero_or_pos n with rfl | hn
  · unfold fmax cells; simp [flatMap_nil']
  obtain ⟨v, hv⟩ := fmax_exists f hm hn
  rw [hv]
  rw [fmax_some] at hv ⊢
  obtain ⟨⟨i, j, hi, hj, he⟩, hle⟩ := hv
  exact ⟨⟨j, i, hj, hi, by rw [h i j hi hj, he]⟩, fun j i hj hi => by rw [h i j hi hj]; exact hle i j hi hj⟩

theorem fmax_mirrored {f g : ℕ → ℕ → ℝ} {m n : ℕ} (h : ∀ i j, i < m → j < n → g i j = f (m - 1 - i) j) : fmax g m n = fmax f m n := by
  rcases Nat.eq_zero_or_pos m with rfl | hm
  · unfold fmax cells; simp [flatMap_nil']
  rcases Nat.eq_zero_or_pos n with rfl | hn
  · unfold fmax cells; simp [flatMap_nil']
  obtain ⟨v, hv⟩ := fmax_exists f hm hn
  rw [hv]
  rw [fmax_some] at hv ⊢
  obtain ⟨⟨i, j, hi, hj, he⟩, hle⟩ := hv
  refine ⟨⟨m - 1 - i, j, by omega, hj, ?_⟩, fun i j hi hj => by rw [h i j hi hj]; exact hle _ j (by omega) hj⟩
  rw [h _ _ (by omega) hj, ← he]
  congr 1
  omega

/-! ## Random grids -/

theorem randomAtScale_transposed (R : ℕ → ℕ → ℝ) (r0 r1 : ℤ) (F0 F1 i j : ℕ) :
    randomAtScale (fun a b => R b a) r1 r0 F1 F0 j i = randomAtScale R r0 r1 F0 F1 i j := by
  unfold randomAtScale bilinear gridAt
  ring

theorem stackSum_transposed (R : ℕ → ℕ → ℕ → ℝ) (weights : List ℝ) (scales : List ℤ) (m n i j : ℕ) :
    stackSum (fun k a b => R k b a) weights scales n m j i = stackSum R weights scales m n i j := by
  unfold stackSum
  simp only [randomAtScale_transposed]

/-- Position of a grid row in the mirrored grid of `K` rows. -/
def mirIdx (K a : ℕ) : ℕ := if a < K then K - 1 - a else a

theorem mirIdx_invol (K a : ℕ) : mirIdx K (mirIdx K a) = a := by
  unfold mirIdx
  split_ifs <;> omega

theorem lin_mirror {k : ℕ} (hk : 2 ≤ k) {x : ℝ} (h0 : 0 ≤ x) (h1 : x ≤ 1) (h : ℕ → ℝ) :
    (1 - inCell k x) * h (k - 1 - cell k x) + inCell k x * h (k - 1 - (cell k x + 1)) =
      (1 - inCell k (1 - x)) * h (cell k (1 - x)) + inCell k (1 - x) * h (cell k (1 - x) + 1) := by
  have hk' : (2 : ℝ) ≤ k := by exact_mod_cast hk
  obtain ⟨s0, s1, hc⟩ := inCell_mem hk h0 h1
  obtain ⟨t0, t1, hd⟩ := inCell_mem hk (x := 1 - x) (by linarith) (by linarith)
  by_cases hint : ∃ a : ℕ, x * ((k : ℝ) - 1) = a
  · obtain ⟨a, ha⟩ := hint
    have hak : a + 1 ≤ k := by
      have : (a : ℝ) + 1 ≤ k := by rw [← ha]; nlinarith
      exact_mod_cast this
    rw [lin_node hk hak ha (fun i => h (k - 1 - i)), lin_node hk (a := k - 1 - a) (by omega) _ h]
    rw [sub_mul, ha, show k - 1 - a = k - (1 + a) by omega, Nat.cast_sub (by omega)]
    push_cast
    ring
  · have ne0 : inCell k x ≠ 0 := fun h' => hint ⟨cell k x, by unfold inCell at h'; linarith⟩
    have ne1 : inCell k x ≠ 1 := fun h' => hint ⟨cell k x + 1, by unfold inCell at h'; push_cast; linarith⟩
    have hs0 : 0 < inCell k x := lt_of_le_of_ne s0 (Ne.symm ne0)
    have hs1 : inCell k x < 1 := lt_of_le_of_ne s1 ne1
    have hcc : cell k (1 - x) = k - 1 - (cell k x + 1) := by
      unfold cell
      have hX : (1 - x) * ((k : ℝ) - 1) = ((k - 1 - (cell k x + 1) : ℕ) : ℝ) + (1 - inCell k x) := by
        rw [show k - 1 - (cell k x + 1) = k - (cell k x + 2) by omega, Nat.cast_sub (by omega)]
        unfold inCell
        push_cast
        ring
      rw [hX, add_comm, Nat.floor_add_natCast (by linarith), Nat.floor_eq_zero.2 (by linarith), zero_add]
      unfold cell
      omega
    have hin : inCell k (1 - x) = 1 - inCell k x := by
      unfold inCell at *
      rw [hcc, show k - 1 - (cell k x + 1) = k - (cell k x + 2) by omega, Nat.cast_sub (by omega)]
      push_cast
      ring
    rw [hin, hcc, show k - 1 - (cell k x + 1) + 1 = k - 1 - cell k x by omega]
    ring

theorem linspace_mirror {F i : ℕ} (hF : 2 ≤ F) (hi : i < F) : linspace01 F (F - 1 - i) = 1 - linspace01 F i := by
  have hF' : (2 : ℝ) ≤ F := by exact_mod_cast hF
  unfold linspace01
  rw [if_neg (by omega), if_neg (by omega), show F - 1 - i = F - (1 + i) by omega, Nat.cast_sub (by omega)]
  push_cast
  have : (F : ℝ) - 1 ≠ 0 := by linarith
  field_simp
  ring

theorem gridAt_mirror (R : ℕ → ℕ → ℝ) (r0 r1 : ℤ) {a : ℕ} (b : ℕ) (ha : a < gridSize r0) :
    gridAt (fun a b => R (mirIdx r0.toNat a) b) r0 r1 a b = gridAt R r0 r1 (gridSize r0 - 1 - a) b := by
  unfold gridAt mirIdx
  unfold gridSize at *
  by_cases h : r0 ≤ 1
  · simp only [if_pos h] at *
    congr 1
    split_ifs <;> omega
  · simp only [if_neg h] at *
    rw [if_pos ha]

theorem randomAtScale_mirrored (R : ℕ → ℕ → ℝ) (r0 r1 : ℤ) {F0 : ℕ} (F1 : ℕ) {i : ℕ} (j : ℕ) (hF : 2 ≤ F0) (hi : i < F0) :
    randomAtScale (fun a b => R (mirIdx r0.toNat a) b) r0 r1 F0 F1 i j = randomAtScale R r0 r1 F0 F1 (F0 - 1 - i) j := by
  have hk := gridSize_ge r0
  obtain ⟨x0, x1⟩ := linspace_mem hi
  obtain ⟨_, _, hc⟩ := inCell_mem hk x0 x1
  unfold randomAtScale
  rw [linspace_mirror hF hi]
  unfold bilinear
  simp only
  rw [gridAt_mirror _ _ _ _ (by omega), gridAt_mirror _ _ _ _ (by omega), gridAt_mirror _ _ _ _ (by omega), gridAt_mirror _ _ _ _ (by omega)]
  exact lin_mirror hk x0 x1 fun a => (1 - inCell (gridSize r1) (linspace01 F1 j)) * gridAt R r0 r1 a (cell (gridSize r1) (linspace01 F1 j)) +
    inCell (gridSize r1) (linspace01 F1 j) * gridAt R r0 r1 a (cell (gridSize r1) (linspace01 F1 j) + 1)

theorem stackSum_mirrored (R : ℕ → ℕ → ℕ → ℝ) (weights : List ℝ) (scales : List ℤ) {m : ℕ} (n : ℕ) {i : ℕ} (j : ℕ) (hm : 2 ≤ m) (hi : i < m) :
    stackSum (fun k a b => R k (mirIdx (scaledSize m (scales.getD k 0)).toNat a) b) weights scales m n i j = stackSum R weights scales m n (m - 1 - i) j := by
  unfold stackSum
  congr 1
  refine List.map_congr_left fun k _ => ?_
  rw [randomAtScale_mirrored (R k) _ _ n j hm hi]

/-! ## The generator -/

/-- Rearranged random fields give rearranged results, if the edges follow the rearrangement. -/
theorem cloudfield_rearr {R1 R2 S1 S2 : ℕ → ℕ → ℕ → ℝ} {weights : List ℝ} {scales : List ℤ} {m n m' n' : ℕ} (hm : 0 < m) (hn : 0 < n) (hm' : 0 < m') (hn' : 0 < n')
    (e : Fin m' × Fin n' ≃ Fin m × Fin n) (fracClear ktmean ktmax kt1 : ℝ) (scaling : String) (s : ℕ)
    (h1 : ∀ p : Fin m' × Fin n', stackSum S1 weights scales m' n' p.1 p.2 = stackSum R1 weights scales m n (e p).1 (e p).2)
    (h2 : ∀ p : Fin m' × Fin n', stackSum S2 weights scales m' n' p.1 p.2 = stackSum R2 weights scales m n (e p).1 (e p).2)
    (he : ∀ (mask : Fin m × Fin n → Bool) (p : Fin m' × Fin n'),
      edges (maskExt fun q => mask (e q)) m' n' p.1 p.2 = edges (maskExt mask) m n (e p).1 (e p).2)
    (hs : scaling = "basic" → ∀ (mask : Fin m × Fin n → Bool) (p : Fin m' × Fin n'),
      (smoothedBinary (maskExt fun q => mask (e q)) m' n' s 0 p.1 p.2 ↔ smoothedBinary (maskExt mask) m n s 0 (e p).1 (e p).2)) :
    cloudfield S1 S2 weights scales m' n' fracClear ktmean ktmax kt1 scaling s =
      (cloudfield R1 R2 weights scales m n fracClear ktmean ktmax kt1 scaling s).map fun g p => g (e p) := by
  have : Nonempty (Fin m × Fin n) := ⟨(⟨0, hm⟩, ⟨0, hn⟩)⟩
  have : Nonempty (Fin m' × Fin n') := ⟨(⟨0, hm'⟩, ⟨0, hn'⟩)⟩
  unfold cloudfield
  rw [stackField_raw, stackField_raw, stackField_raw, stackField_raw]
  by_cases hl : weights.length = scales.length
  swap
  · simp [hl, bind, Except.bind, Except.map]
  rw [if_neg (by simpa using hl), if_neg (by simpa using hl), if_neg (by simpa using hl), if_neg (by simpa using hl)]
  simp only [bind, Except.bind]
  have e1 : (fun p : Fin m' × Fin n' => stackSum S1 weights scales m' n' p.1 p.2) =
    fun p => (fun q : Fin m × Fin n => stackSum R1 weights scales m n q.1 q.2) (e p) := funext h1
  have e2 : (fun p : Fin m' × Fin n' => stackSum S2 weights scales m' n' p.1 p.2) =
    fun p => (fun q : Fin m × Fin n => stackSum R2 weights scales m n q.1 q.2) (e p) := funext h2
  rw [e1, e2, C190_rearranged (fun q : Fin m × Fin n => stackSum R2 weights scales m n q.1 q.2) e fracClear]
  cases clearMask (fun q : Fin m × Fin n => stackSum R2 weights scales m n q.1 q.2) fracClear with
  | error _ => rfl
  | ok mask =>
    simp only [Except.map]
    by_cases ho : scaling = "original"
    · rw [if_pos ho, if_pos ho]
      have hed : (fun p : Fin m' × Fin n' => open Classical in decide (0 < edges (maskExt fun q => mask (e q)) m' n' p.1 p.2)) =
          fun p => (fun q : Fin m × Fin n => open Classical in decide (0 < edges (maskExt mask) m n q.1 q.2)) (e p) := by
        funext p
        exact decide_eq_decide.2 (by rw [he])
      have := scaleLave_rearr (fun q : Fin m × Fin n => stackSum R1 weights scales m n q.1 q.2) mask
        (fun q : Fin m × Fin n => open Classical in decide (0 < edges (maskExt mask) m n q.1 q.2)) ktmean ktmax kt1 0.99 e
      rw [← hed] at this
      exact this
    · rw [if_neg ho, if_neg ho]
      by_cases hb : scaling = "basic"
      · rw [if_pos hb, if_pos hb]
        have hed : (fun p : Fin m' × Fin n' => open Classical in decide (smoothedBinary (maskExt fun q => mask (e q)) m' n' s 0 p.1 p.2)) =
            fun p => (fun q : Fin m × Fin n => open Classical in decide (smoothedBinary (maskExt mask) m n s 0 q.1 q.2)) (e p) := by
          funext p
          exact decide_eq_decide.2 (hs hb mask p)
        have := scaleBasic_rearr (fun q : Fin m × Fin n => stackSum R1 weights scales m n q.1 q.2) mask
          (fun q : Fin m × Fin n => open Classical in decide (smoothedBinary (maskExt mask) m n s 0 q.1 q.2)) ktmean ktmax kt1 0.999 false none e
        rw [← hed] at this
        change Except.map _ (scaleBasic _ _ (fun p : Fin m' × Fin n' => open Classical in decide (smoothedBinary (maskExt fun q => mask (e q)) m' n' s 0 p.1 p.2)) _ _ _ _ _ _) = _
        rw [this]
        cases h : scaleBasic (fun q : Fin m × Fin n => stackSum R1 weights scales m n q.1 q.2) mask
          (fun q : Fin m × Fin n => open Classical in decide (smoothedBinary (maskExt mask) m n s 0 q.1 q.2)) ktmean ktmax kt1 0.999 false none with
        | error x =>
          change _ = Except.map _ (Except.map _ (scaleBasic _ _ (fun q : Fin m × Fin n => open Classical in decide (smoothedBinary (maskExt mask) m n s 0 q.1 q.2)) _ _ _ _ _ _))
          rw [h]; rfl
        | ok x =>
          change _ = Except.map _ (Except.map _ (scaleBasic _ _ (fun q : Fin m × Fin n => open Classical in decide (smoothedBinary (maskExt mask) m n s 0 q.1 q.2)) _ _ _ _ _ _))
          rw [h]; rfl
      · rw [if_neg hb, if_neg hb]

/-- Rows and columns exchanged. -/
theorem cloudfield_transposed (R1 R2 : ℕ → ℕ → ℕ → ℝ) (weights : List ℝ) (scales : List ℤ) {m n : ℕ} (hm : 0 < m) (hn : 0 < n)
    (fracClear ktmean ktmax kt1 : ℝ) (scaling : String) (s : ℕ) :
    cloudfield (fun k a b => R1 k b a) (fun k a b => R2 k b a) weights scales n m fracClear ktmean ktmax kt1 scaling s =
      (cloudfield R1 R2 weights scales m n fracClear ktmean ktmax kt1 scaling s).map fun g p => g (p.2, p.1) := by
  have hx : ∀ mask : Fin m × Fin n → Bool, (maskExt fun q : Fin n × Fin m => mask (Equiv.prodComm _ _ q)) = fun a b => maskExt mask b a := by
    intro mask
    funext a b
    unfold maskExt
    by_cases h : b < m ∧ a < n
    · rw [dif_pos h, dif_pos h.symm]; rfl
    · rw [dif_neg h, dif_neg fun h' => h h'.symm]
  refine cloudfield_rearr hm hn hn hm (Equiv.prodComm (Fin n) (Fin m)) fracClear ktmean ktmax kt1 scaling s ?_ ?_ ?_ ?_
  · intro p; exact stackSum_transposed R1 weights scales m n p.2 p.1
  · intro p; exact stackSum_transposed R2 weights scales m n p.2 p.1
  · intro mask p
    rw [hx]
    exact C191_transposed (maskExt mask) m n p.2 p.1
  · intro _ mask p
    rw [hx]
    unfold smoothedBinary
    rw [fmax_transposed (f := smoothed (maskExt mask) m n s) fun i j _ _ => smoothed_transposed (maskExt mask) m n s i j, smoothed_transposed]
    exact Iff.rfl

/-- The order of the rows reversed. -/
theorem cloudfield_mirrored (R1 R2 : ℕ → ℕ → ℕ → ℝ) (weights : List ℝ) (scales : List ℤ) {m n : ℕ} (hm : 2 ≤ m) (hn : 0 < n)
    (fracClear ktmean ktmax kt1 : ℝ) (scaling : String) (s : ℕ) (hs : scaling = "basic" → Odd s) :
    cloudfield (fun k a b => R1 k (mirIdx (scaledSize m (scales.getD k 0)).toNat a) b) (fun k a b => R2 k (mirIdx (scaledSize m (scales.getD k 0)).toNat a) b)
      weights scales m n fracClear ktmean ktmax kt1 scaling s =
      (cloudfield R1 R2 weights scales m n fracClear ktmean ktmax kt1 scaling s).map fun g p => g (p.1.rev, p.2) := by
  have hm0 : 0 < m := by omega
  have hrev : ∀ i : Fin m, ((i.rev : Fin m) : ℕ) = m - 1 - i := fun i => by rw [Fin.val_rev]; omega
  have hx : ∀ mask : Fin m × Fin n → Bool, ∀ a b, a < m → b < n →
      (maskExt fun q : Fin m × Fin n => mask (Equiv.prodCongr Fin.revPerm (Equiv.refl _) q)) a b = (fun a b => maskExt mask (m - 1 - a) b) a b := by
    intro mask a b ha hb
    unfold maskExt
    rw [dif_pos ⟨ha, hb⟩]
    beta_reduce
    rw [dif_pos ⟨by omega, hb⟩]
    congr 1
    exact Prod.ext (Fin.ext (hrev ⟨a, ha⟩)) rfl
  refine cloudfield_rearr hm0 hn hm0 hn (Equiv.prodCongr Fin.revPerm (Equiv.refl _)) fracClear ktmean ktmax kt1 scaling s ?_ ?_ ?_ ?_
  · intro p
    rw [stackSum_mirrored R1 weights scales n p.2 hm p.1.2, ← hrev]
    rfl
  · intro p
    rw [stackSum_mirrored R2 weights scales n p.2 hm p.1.2, ← hrev]
    rfl
  · intro mask p
    rw [edges_congr hm0 hn (hx mask), C191_mirrored _ m n _ _ p.1.2, ← hrev]
    rfl
  · intro hb mask p
    unfold smoothedBinary
    rw [smoothed_congr hm0 hn (hx mask), fmax_mirrored (f := smoothed (maskExt mask) m n s) fun i j hi _ => smoothed_mirrored (maskExt mask) m n s i j (hs hb) hi,
      smoothed_mirrored _ _ _ _ _ _ (hs hb) p.1.2, ← hrev]
    exact Iff.rfl

end SST.Cloud
