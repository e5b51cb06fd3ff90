import Verif.Props.TfDelay
import Verif.Spec.Segments

/-!
# Properties C177-C179: which segments are averaged

Specifications: `Spec/Segments.lean`.
-/

namespace SST.Props.Segments
open SST SST.Tf SST.Dft SST.Corr SST.Spec

/-- Factor of `averagedPsd`. -/
private noncomputable def fac (o : Opts) (b : Bool) (sc : String) (L k : ℕ) : ℝ :=
  (if k = 0 ∨ 2 * k = L then 1 else 2) *
    (if (if b then "density" else sc) = "density" then o.dt / ((o.win L).map fun v => v ^ 2).sum else 1 / (o.win L).sum ^ 2)

private theorem psd_inv {o : Opts} {b : Bool} {nm sc : String} {x : List ℝ} {d : List (String × List (ℝ × ℝ))}
    (h : averagedPsd o b [(nm, x)] sc = .ok d) :
    0 < o.navgs ∧ 0 < x.length / o.navgs ∧ pyInt (((x.length / o.navgs : ℕ) : ℝ) * o.overlap) < (x.length / o.navgs : ℕ) ∧
      ((if b then "density" else sc) = "density" ∨ (if b then "density" else sc) = "spectrum") ∧
      d = [(nm, (List.range (x.length / o.navgs / 2 + 1)).map fun (k : ℕ) => ((k : ℝ) / ((x.length / o.navgs : ℕ) * o.dt),
        psd (fac o b sc (x.length / o.navgs) k)
          (spectra (o.win (x.length / o.navgs)) o.detr (x.length / o.navgs) (pyInt (((x.length / o.navgs : ℕ) : ℝ) * o.overlap)).toNat x k)))] := by
  have key : averagedPsd o b [(nm, x)] sc = (if o.navgs = 0 then .error .other
    else if x.length / o.navgs = 0 ∨ ((x.length / o.navgs : ℕ) : ℤ) ≤ pyInt (((x.length / o.navgs : ℕ) : ℝ) * o.overlap) then .error .valueError
    else if (if b then "density" else sc) ≠ "density" ∧ (if b then "density" else sc) ≠ "spectrum" then .error .valueError
    else .ok [(nm, (List.range (x.length / o.navgs / 2 + 1)).map fun (k : ℕ) => ((k : ℝ) / ((x.length / o.navgs : ℕ) * o.dt),
        psd (fac o b sc (x.length / o.navgs) k)
          (spectra (o.win (x.length / o.navgs)) o.detr (x.length / o.navgs) (pyInt (((x.length / o.navgs : ℕ) : ℝ) * o.overlap)).toNat x k)))]) := rfl
  rw [key] at h
  by_cases h1 : o.navgs = 0
  · rw [if_pos h1] at h; cases h
  rw [if_neg h1] at h
  by_cases h2 : x.length / o.navgs = 0 ∨ ((x.length / o.navgs : ℕ) : ℤ) ≤ pyInt (((x.length / o.navgs : ℕ) : ℝ) * o.overlap)
  · rw [if_pos h2] at h; cases h
  rw [if_neg h2] at h
  by_cases h3 : (if b then "density" else sc) ≠ "density" ∧ (if b then "density" else sc) ≠ "spectrum"
  · rw [if_pos h3] at h; cases h
  rw [if_neg h3] at h
  push Not at h2
  refine ⟨Nat.pos_of_ne_zero h1, Nat.pos_of_ne_zero h2.1, h2.2, ?_, ?_⟩
  · by_contra hc
    push Not at hc
    exact h3 hc
  · exact (Except.ok.inj h).symm

private theorem psd_block {o : Opts} {b : Bool} {nm sc : String} {y : List ℝ} {L : ℕ} (hl : y.length = L) (hL : 0 < L)
    (hov : pyInt ((L : ℝ) * o.overlap) < L)
    (hs : (if b then "density" else sc) = "density" ∨ (if b then "density" else sc) = "spectrum") :
    averagedPsd { o with navgs := 1 } b [(nm, y)] sc =
      .ok [(nm, (List.range (L / 2 + 1)).map fun (k : ℕ) => ((k : ℝ) / (L * o.dt),
        fac o b sc L k * Complex.normSq (spectrum (o.win L) o.detr y k)))] := by
  subst hl
  have ht : (pyInt ((y.length : ℝ) * o.overlap)).toNat < y.length := by omega
  unfold averagedPsd
  simp only [List.headD_cons, Nat.div_one, one_ne_zero, if_false]
  rw [if_neg (by push Not; exact ⟨hL.ne', hov⟩), if_neg (by push Not; intro h; exact hs.resolve_left h)]
  simp only [List.map_cons, List.map_nil]
  congr 3
  apply List.map_congr_left
  intro k _
  unfold fac psd spectra
  rw [segStarts_one ht]
  simp only [List.map_cons, List.map_nil, segment_all, List.sum_cons, List.sum_nil, add_zero, List.length_cons, List.length_nil,
    zero_add, Nat.cast_one, div_one]

private theorem fits {n L ov : ℕ} (hL : 0 < L) (hn : L ≤ n) (hov : ov < L) : AsManyAsFit n L (L - ov) ((n - ov) / (L - ov)) := by
  have hh : 0 < L - ov := by omega
  have h1 : L - ov ≤ n - ov := by omega
  have hS : 0 < (n - ov) / (L - ov) := Nat.div_pos h1 hh
  have a1 := Nat.div_mul_le_self (n - ov) (L - ov)
  have a2 := Nat.lt_mul_div_succ (n - ov) hh
  refine ⟨hh, hS, ?_, ?_⟩
  · obtain ⟨S, hS'⟩ : ∃ S, (n - ov) / (L - ov) = S + 1 := ⟨_, (Nat.succ_pred_eq_of_pos hS).symm⟩
    rw [hS'] at a1 ⊢
    rw [Nat.add_sub_cancel]
    rw [Nat.add_mul] at a1
    omega
  · rw [Nat.mul_succ] at a2
    rw [Nat.mul_comm]
    omega

private theorem fits_unique {n L h S S' : ℕ} (h1 : AsManyAsFit n L h S) (h2 : AsManyAsFit n L h S') : S = S' := by
  obtain ⟨a, b, c, d⟩ := h1
  obtain ⟨-, b', c', d'⟩ := h2
  have key : ∀ p q : ℕ, 0 < q → (q - 1) * h + L ≤ n → n < p * h + L → q ≤ p := by
    intro p q hq h1 h2
    have : (q - 1) * h < p * h := by omega
    have := Nat.lt_of_mul_lt_mul_right this
    omega
  exact le_antisymm (key _ _ b c d') (key _ _ b' c' d)

private theorem seg_len {x : List ℝ} {L h S s : ℕ} (hf : AsManyAsFit x.length L h S) (hs : s < S) : ((x.drop (s * h)).take L).length = L := by
  obtain ⟨-, -, c, -⟩ := hf
  have : s * h ≤ (S - 1) * h := Nat.mul_le_mul_right _ (by omega)
  rw [List.length_take, List.length_drop]
  omega

private theorem listsum_range (S : ℕ) (f : ℕ → ℝ) : ((List.range S).map f).sum = ∑ s ∈ Finset.range S, f s := by
  rw [Finset.sum_range, ← List.sum_ofFn]
  congr 1
  rw [List.ofFn_eq_map, List.finRange_eq_pmap_range] 
  simp [List.map_pmap]

/-- C177: the averaged power spectrum of a record is the mean of the spectra of its segments.  The segments have
`n // navgs` samples, each begins `L - int(L overlap)` samples after the one before, the first at the first sample,
and as many are used as fit into the record. -/
theorem C177_mean (o : Opts) (h0 : 0 ≤ o.overlap) (b : Bool) (nm sc : String) (x : List ℝ) (d : List (String × List (ℝ × ℝ)))
    (h : averagedPsd o b [(nm, x)] sc = .ok d) :
    ∃ S rows, d = [(nm, rows)] ∧
      AsManyAsFit x.length (x.length / o.navgs) (x.length / o.navgs - ⌊((x.length / o.navgs : ℕ) : ℝ) * o.overlap⌋₊) S ∧
      PsdIsMean o b nm sc x (x.length / o.navgs) (x.length / o.navgs - ⌊((x.length / o.navgs : ℕ) : ℝ) * o.overlap⌋₊) S rows := by
  obtain ⟨hn, hL, hov, hs, rfl⟩ := psd_inv h
  set L := x.length / o.navgs with hLdef
  have hpy : (pyInt ((L : ℝ) * o.overlap)).toNat = ⌊(L : ℝ) * o.overlap⌋₊ := by
    unfold pyInt; rw [if_pos (by positivity)]; rfl
  rw [hpy]
  set ov := ⌊(L : ℝ) * o.overlap⌋₊ with hovdef
  have hovL : ov < L := by omega
  have hLn : L ≤ x.length := Nat.div_le_self _ _
  have hf := fits hL hLn hovL
  refine ⟨(x.length - ov) / (L - ov), _, rfl, hf, ?_⟩
  refine ⟨fun s k => fac o b sc L k * Complex.normSq (spectrum (o.win L) o.detr ((x.drop (s * (L - ov))).take L) k), ?_, ?_⟩
  · intro s hs'
    exact psd_block (seg_len hf hs') hL hov hs
  · apply List.map_congr_left
    intro k _
    congr 1
    unfold psd spectra segStarts
    rw [List.map_map, List.map_map, List.length_map, List.length_map, List.length_range, listsum_range, ← Finset.mul_sum, mul_div_assoc]
    rfl

/-- C177: each column of a frame has the spectrum of that column alone. -/
theorem C177_columns (o : Opts) (sc : String) (cols : List (String × List ℝ)) (n : ℕ) (hn : ∀ c ∈ cols, c.2.length = n)
    (d : List (String × List (ℝ × ℝ))) (h : averagedPsd o false cols sc = .ok d) (i : ℕ) (c : String × List ℝ) (hc : cols[i]? = some c) :
    ∃ rows, d[i]? = some (c.1, rows) ∧ averagedPsd o false [c] sc = .ok [(c.1, rows)] := by
  have hcn : c.2.length = n := hn c (List.mem_of_getElem? hc)
  have hh : (cols.headD ("", [])).2.length = n := by
    cases cols with
    | nil => simp at hc
    | cons a l => exact hn a (by simp)
  unfold averagedPsd at h ⊢
  simp only [hh, hcn, List.headD_cons] at h ⊢
  by_cases h1 : o.navgs = 0
  · rw [if_pos h1] at h; cases h
  rw [if_neg h1] at h ⊢
  by_cases h2 : n / o.navgs = 0 ∨ ((n / o.navgs : ℕ) : ℤ) ≤ pyInt (((n / o.navgs : ℕ) : ℝ) * o.overlap)
  · rw [if_pos h2] at h; cases h
  rw [if_neg h2] at h ⊢
  by_cases h3 : (if (false : Bool) = true then "density" else sc) ≠ "density" ∧ (if (false : Bool) = true then "density" else sc) ≠ "spectrum"
  · rw [if_pos h3] at h; cases h
  rw [if_neg h3] at h ⊢
  obtain rfl := Except.ok.inj h
  refine ⟨_, ?_, rfl⟩
  rw [List.getElem?_map, hc]
  rfl


private theorem psd_ok (o : Opts) (b : Bool) (nm sc : String) (x : List ℝ) (h1 : 0 < o.navgs) (h2 : o.navgs ≤ x.length) (h3 : 0 ≤ o.overlap)
    (h4 : o.overlap < 1) (h5 : sc = "density") : ∃ d, averagedPsd o b [(nm, x)] sc = .ok d := by
  have hL : 0 < x.length / o.navgs := Nat.div_pos h2 h1
  have hp : pyInt (((x.length / o.navgs : ℕ) : ℝ) * o.overlap) < (x.length / o.navgs : ℕ) := by
    unfold pyInt
    rw [if_pos (by positivity), Int.floor_lt, Int.cast_natCast]
    have : (0 : ℝ) < ((x.length / o.navgs : ℕ) : ℝ) := by exact_mod_cast hL
    nlinarith
  subst h5
  unfold averagedPsd
  simp only [List.headD_cons]
  rw [if_neg h1.ne']
  refine ⟨_, (if_neg ?_).trans ((if_neg ?_).trans rfl)⟩
  · push Not; exact ⟨hL.ne', hp⟩
  · simp

example : ∃ d, averagedPsd ⟨1, 2, 0.5, fun L => List.replicate L 1, .constant⟩ false [("a", [1, 2, 3, 5, 8])] "density" = .ok d :=
  psd_ok _ _ _ _ _ (by norm_num) (by simp) (by norm_num) (by norm_num) rfl

/-! ## C178 -/

/-- C178 (partial: if `navgs` divides the number of samples): without overlap the result is the mean of exactly `navgs`
segments, which are the consecutive blocks the record is cut into. -/
theorem C178_blocks_partial (o : Opts) (h0 : o.overlap = 0) (b : Bool) (nm sc : String) (x : List ℝ) (hd : o.navgs ∣ x.length)
    (d : List (String × List (ℝ × ℝ))) (h : averagedPsd o b [(nm, x)] sc = .ok d) :
    ∃ rows, d = [(nm, rows)] ∧ PsdIsMean o b nm sc x (x.length / o.navgs) (x.length / o.navgs) o.navgs rows := by
  obtain ⟨S, rows, rfl, hf, hm⟩ := C177_mean o h0.ge b nm sc x d h
  obtain ⟨hn, hL, -⟩ := psd_inv h
  rw [h0, mul_zero, Nat.floor_zero, Nat.sub_zero] at hf hm
  have : AsManyAsFit x.length (x.length / o.navgs) (x.length / o.navgs) o.navgs := by
    obtain ⟨q, hq⟩ := hd
    have e : x.length / o.navgs = q := by rw [hq]; exact Nat.mul_div_cancel_left _ hn
    rw [e] at hL ⊢
    refine ⟨hL, hn, ?_, ?_⟩
    · rw [hq]
      obtain ⟨m, hm⟩ : ∃ m, o.navgs = m + 1 := ⟨_, (Nat.succ_pred_eq_of_pos hn).symm⟩
      rw [hm, Nat.add_sub_cancel, Nat.add_mul, Nat.one_mul]
    · rw [hq]; omega
  rw [fits_unique hf this] at hm
  exact ⟨rows, rfl, hm⟩

/-- C178 (partial): at least `navgs` segments are averaged, and more overlap never means fewer segments. -/
theorem C178_more_partial (o : Opts) (ov' : ℝ) (h0 : 0 ≤ o.overlap) (h1 : o.overlap ≤ ov') (b : Bool) (nm sc : String) (x : List ℝ)
    (d d' : List (String × List (ℝ × ℝ))) (h : averagedPsd o b [(nm, x)] sc = .ok d)
    (h' : averagedPsd { o with overlap := ov' } b [(nm, x)] sc = .ok d') :
    ∃ (s s' S S' : ℕ) (rows rows' : List (ℝ × ℝ)), d = [(nm, rows)] ∧ d' = [(nm, rows')] ∧
      AsManyAsFit x.length (x.length / o.navgs) s S ∧ AsManyAsFit x.length (x.length / o.navgs) s' S' ∧
      PsdIsMean o b nm sc x (x.length / o.navgs) s S rows ∧
      PsdIsMean { o with overlap := ov' } b nm sc x (x.length / o.navgs) s' S' rows' ∧
      s' ≤ s ∧ o.navgs ≤ S ∧ S ≤ S' := by
  obtain ⟨S, rows, rfl, hf, hm⟩ := C177_mean o h0 b nm sc x d h
  obtain ⟨S', rows', rfl, hf', hm'⟩ := C177_mean { o with overlap := ov' } (h0.trans h1) b nm sc x d' h'
  have hss : x.length / o.navgs - ⌊((x.length / o.navgs : ℕ) : ℝ) * ov'⌋₊ ≤
      x.length / o.navgs - ⌊((x.length / o.navgs : ℕ) : ℝ) * o.overlap⌋₊ :=
    Nat.sub_le_sub_left (Nat.floor_mono (mul_le_mul_of_nonneg_left h1 (by positivity))) _
  obtain ⟨hn, hL, -⟩ := psd_inv h
  refine ⟨_, _, S, S', rows, rows', rfl, rfl, hf, hf', hm, hm', hss, ?_, ?_⟩
  · obtain ⟨a1, a2, a3, a4⟩ := hf
    have hsL : x.length / o.navgs - ⌊((x.length / o.navgs : ℕ) : ℝ) * o.overlap⌋₊ ≤ x.length / o.navgs := Nat.sub_le _ _
    have h3 : x.length / o.navgs * o.navgs ≤ x.length := Nat.div_mul_le_self _ _
    by_contra hc
    push Not at hc
    have h4 : (S + 1) * (x.length / o.navgs) ≤ o.navgs * (x.length / o.navgs) := Nat.mul_le_mul_right _ hc
    have h5 := Nat.mul_le_mul_left S hsL
    rw [Nat.mul_comm o.navgs] at h4
    rw [Nat.add_mul, Nat.one_mul] at h4
    omega
  · obtain ⟨a1, a2, a3, a4⟩ := hf
    obtain ⟨b1, b2, b3, b4⟩ := hf'
    by_contra hc
    push Not at hc
    have h4 := Nat.mul_le_mul_left S' hss
    have h5 : S' * (x.length / o.navgs - ⌊((x.length / o.navgs : ℕ) : ℝ) * o.overlap⌋₊) ≤
      (S - 1) * (x.length / o.navgs - ⌊((x.length / o.navgs : ℕ) : ℝ) * o.overlap⌋₊) := Nat.mul_le_mul_right _ (by omega)
    simp only at b4 h4
    omega


example : (∃ d, averagedPsd ⟨1, 2, 0, fun L => List.replicate L 1, .constant⟩ false [("a", [1, 2, 3, 5])] "density" = .ok d) ∧
    (2 : ℕ) ∣ ([1, 2, 3, 5] : List ℝ).length ∧
    ∃ d, averagedPsd ⟨1, 2, 0.5, fun L => List.replicate L 1, .constant⟩ false [("a", [1, 2, 3, 5])] "density" = .ok d :=
  ⟨psd_ok _ _ _ _ _ (by norm_num) (by simp) (by norm_num) (by norm_num) rfl, ⟨2, rfl⟩,
    psd_ok _ _ _ _ _ (by norm_num) (by simp) (by norm_num) (by norm_num) rfl⟩

/-- C178 is violated if `navgs` does not divide the number of samples: three samples and two averages without overlap
are cut into three segments of one sample. -/
theorem C178_violated_count : ∃ (o : Opts) (nm : String) (x : List ℝ) (rows : List (ℝ × ℝ)), o.overlap = 0 ∧ o.navgs = 2 ∧ x.length = 3 ∧
    averagedPsd o false [(nm, x)] "density" = .ok [(nm, rows)] ∧
    PsdIsMean o false nm "density" x (x.length / o.navgs) (x.length / o.navgs) 3 rows ∧
    ¬ PsdIsMean o false nm "density" x (x.length / o.navgs) (x.length / o.navgs) o.navgs rows := by
  let o : Opts := ⟨1, 2, 0, fun L => List.replicate L 1, .none⟩
  let x : List ℝ := [0, 0, 1]
  obtain ⟨d, hd⟩ := psd_ok o false "a" "density" x (by norm_num [o]) (by simp [o, x]) (by norm_num [o]) (by norm_num [o]) rfl
  obtain ⟨S, rows, rfl, hf, hm⟩ := C177_mean o (by norm_num [o]) false "a" "density" x d hd
  have h0 : (x.length / o.navgs) - ⌊((x.length / o.navgs : ℕ) : ℝ) * o.overlap⌋₊ = 1 := by simp [o, x]
  have hL : x.length / o.navgs = 1 := by simp [o, x]
  rw [h0, hL] at hf hm
  have h3 : S = 3 := fits_unique hf ⟨by norm_num, by norm_num, by simp [x], by simp [x]⟩
  subst h3
  refine ⟨o, "a", x, rows, rfl, rfl, rfl, hd, by rw [hL]; exact hm, ?_⟩
  rw [hL]
  intro hm2
  obtain ⟨seg, hs, hr⟩ := hm
  obtain ⟨seg', hs', hr'⟩ := hm2
  rw [hr] at hr'
  have hval : ∀ (s : ℕ) (v : ℝ), (x.drop (s * 1)).take 1 = [v] → ∀ g : ℕ → ℝ,
      averagedPsd { o with navgs := 1 } false [("a", (x.drop (s * 1)).take 1)] "density" =
        .ok [("a", (List.range (1 / 2 + 1)).map fun (k : ℕ) => ((k : ℝ) / ((1 : ℕ) * o.dt), g k))] → g 0 = v ^ 2 := by
    intro s v hv g h
    rw [hv, psd_block (L := 1) rfl one_pos (by simp [o, pyInt]) (Or.inl rfl)] at h
    simp [fac, o, Tf.spectrum, detrend, at0, twiddle, Complex.normSq_apply] at h
    rw [← h]; ring
  have a0 := hval 0 0 rfl _ (hs 0 (by norm_num))
  have a1 := hval 1 0 rfl _ (hs 1 (by norm_num))
  have a2 := hval 2 1 rfl _ (hs 2 (by norm_num))
  have b0 := hval 0 0 rfl _ (hs' 0 (by norm_num [o]))
  have b1 := hval 1 0 rfl _ (hs' 1 (by norm_num [o]))
  simp [o, Finset.sum_range_succ, a0, a1, a2, b0, b1] at hr'

/-! ## C179 -/

private theorem tf_block {o : Opts} {a b : String} {x y : List ℝ} {L : ℕ} (hx : x.length = L) (hy : y.length = L) (hL : 0 < L)
    (hov : pyInt ((L : ℝ) * o.overlap) < L) :
    averagedTf { o with navgs := 1 } [(a, x)] [(b, y)] =
      .ok [(a ++ "_" ++ b, (List.range (L / 2 + 1)).map fun (k : ℕ) => ⟨(k : ℝ) / (L * o.dt),
        tfBin (psdScale (o.win L) o.dt L k) [spectrum (o.win L) o.detr x k] [spectrum (o.win L) o.detr y k],
        cohBin (psdScale (o.win L) o.dt L k) [spectrum (o.win L) o.detr x k] [spectrum (o.win L) o.detr y k]⟩)] := by
  have ht : (pyInt ((L : ℝ) * o.overlap)).toNat < L := by omega
  have hx' := segment_all x
  have hy' := segment_all y
  rw [hx] at hx'
  rw [hy] at hy'
  unfold averagedTf
  simp only [pairCols, List.length_cons, List.length_nil, if_true, List.zipWith_cons_cons, List.zipWith_nil_left, List.headD_cons, hx,
    Nat.div_one, one_ne_zero, if_false]
  rw [if_neg (by push Not; exact ⟨hL.ne', hov⟩)]
  simp only [List.map_cons, List.map_nil]
  unfold pairTf spectra
  simp only [hx, hy, segStarts_one ht, List.map_cons, List.map_nil, hx', hy']

/-- C179: the averaged transfer function is the mean of the transfer functions of the segments, weighted with the input
power of the segment at that frequency; it is NaN exactly where no segment has power.  The segments are those of C177. -/
theorem C179_weighted (o : Opts) (h0 : 0 ≤ o.overlap) (a b : String) (x y : List ℝ) (hl : x.length = y.length) (cols : List (String × List Row))
    (h : averagedTf o [(a, x)] [(b, y)] = .ok cols) :
    ∃ (S : ℕ) (rows : List Row) (P : ℕ → ℕ → ℝ) (T : ℕ → ℕ → Option ℂ), cols = [(a ++ "_" ++ b, rows)] ∧
      AsManyAsFit x.length (x.length / o.navgs) (x.length / o.navgs - ⌊((x.length / o.navgs : ℕ) : ℝ) * o.overlap⌋₊) S ∧
      (∀ s, s < S →
        averagedPsd { o with navgs := 1 } false [(a, (x.drop (s * (x.length / o.navgs - ⌊((x.length / o.navgs : ℕ) : ℝ) * o.overlap⌋₊))).take
            (x.length / o.navgs))] "density" =
          .ok [(a, (List.range (x.length / o.navgs / 2 + 1)).map fun (k : ℕ) => ((k : ℝ) / ((x.length / o.navgs : ℕ) * o.dt), P s k))] ∧
        ∃ rs, averagedTf { o with navgs := 1 }
            [(a, (x.drop (s * (x.length / o.navgs - ⌊((x.length / o.navgs : ℕ) : ℝ) * o.overlap⌋₊))).take (x.length / o.navgs))]
            [(b, (y.drop (s * (x.length / o.navgs - ⌊((x.length / o.navgs : ℕ) : ℝ) * o.overlap⌋₊))).take (x.length / o.navgs))] =
          .ok [(a ++ "_" ++ b, rs)] ∧
          rs.map (fun r => (r.f, r.tf)) = (List.range (x.length / o.navgs / 2 + 1)).map fun (k : ℕ) =>
            ((k : ℝ) / ((x.length / o.navgs : ℕ) * o.dt), T s k)) ∧
      rows.map (fun r => (r.f, r.tf)) = (List.range (x.length / o.navgs / 2 + 1)).map fun (k : ℕ) =>
        ((k : ℝ) / ((x.length / o.navgs : ℕ) * o.dt),
          if ∑ s ∈ Finset.range S, P s k = 0 then none
          else some ((∑ s ∈ Finset.range S, (P s k : ℂ) * (T s k).getD 0) / ((∑ s ∈ Finset.range S, P s k : ℝ) : ℂ))) := by
  obtain ⟨hn, hL, hov, rfl⟩ := averagedTf_pair o a b x y h
  set L := x.length / o.navgs with hLdef
  have hpy : (pyInt ((L : ℝ) * o.overlap)).toNat = ⌊(L : ℝ) * o.overlap⌋₊ := by
    unfold pyInt; rw [if_pos (by positivity)]; rfl
  rw [hpy]
  set ov := ⌊(L : ℝ) * o.overlap⌋₊ with hovdef
  have hovL : ov < L := by omega
  have hLn : L ≤ x.length := Nat.div_le_self _ _
  have hf := fits hL hLn hovL
  have hS := hf.2.1
  set S := (x.length - ov) / (L - ov) with hSdef
  let X : ℕ → ℕ → ℂ := fun s k => spectrum (o.win L) o.detr ((x.drop (s * (L - ov))).take L) k
  let Y : ℕ → ℕ → ℂ := fun s k => spectrum (o.win L) o.detr ((y.drop (s * (L - ov))).take L) k
  refine ⟨S, _, fun s k => psdScale (o.win L) o.dt L k * Complex.normSq (X s k),
    fun s k => tfBin (psdScale (o.win L) o.dt L k) [X s k] [Y s k], rfl, hf, ?_, ?_⟩
  · intro s hs
    have hlx := seg_len hf hs
    have hly := seg_len (x := y) (by rw [← hl]; exact hf) hs
    refine ⟨?_, _, tf_block hlx hly hL hov, ?_⟩
    · rw [psd_block hlx hL hov (Or.inl rfl)]
      rfl
    · rw [List.map_map]; rfl
  · unfold pairTf
    rw [List.map_map]
    apply List.map_congr_left
    intro k _
    simp only [Function.comp_apply, Prod.mk.injEq, true_and]
    set c := psdScale (o.win L) o.dt L k with hc
    have hsX : spectra (o.win L) o.detr L ov x k = (List.range S).map fun s => X s k := by
      unfold spectra segStarts; rw [List.map_map]; rfl
    have hsY : spectra (o.win L) o.detr L ov y k = (List.range S).map fun s => Y s k := by
      unfold spectra segStarts; rw [List.map_map, ← hl]; rfl
    rw [hsX, hsY]
    have hSr : (S : ℝ) ≠ 0 := by exact_mod_cast hS.ne'
    have hSc : (S : ℂ) ≠ 0 := by exact_mod_cast hS.ne'
    have hpsd : psd c ((List.range S).map fun s => X s k) = (∑ s ∈ Finset.range S, c * Complex.normSq (X s k)) / S := by
      unfold psd
      rw [List.map_map, List.length_map, List.length_range, ← Finset.mul_sum, mul_div_assoc, ← listsum_range]
      rfl
    have hcsd : csd c ((List.range S).map fun s => X s k) ((List.range S).map fun s => Y s k) =
        (∑ s ∈ Finset.range S, (c : ℂ) * ((starRingEnd ℂ) (X s k) * Y s k)) / S := by
      unfold csd
      rw [List.zipWith_map, List.length_map, List.length_range, ← Finset.mul_sum, mul_div_assoc]
      congr 2
      rw [List.zipWith_self, Finset.sum_range, ← List.sum_ofFn]
      congr 1
      rw [List.ofFn_eq_map, List.finRange_eq_pmap_range]
      simp [List.map_pmap]
    have hterm : ∀ s, ((c * Complex.normSq (X s k) : ℝ) : ℂ) * (tfBin c [X s k] [Y s k]).getD 0 = (c : ℂ) * ((starRingEnd ℂ) (X s k) * Y s k) := by
      intro s
      unfold tfBin
      have e1 : psd c [X s k] = c * Complex.normSq (X s k) := by simp [psd]
      have e2 : csd c [X s k] [Y s k] = (c : ℂ) * ((starRingEnd ℂ) (X s k) * Y s k) := by simp [csd]
      rw [e1, e2]
      by_cases hz : c * Complex.normSq (X s k) = 0
      · rw [if_pos hz, hz]
        rcases mul_eq_zero.1 hz with h | h
        · simp [h]
        · rw [Complex.normSq_eq_zero] at h; simp [h]
      · rw [if_neg hz, Option.getD_some]
        have : ((c * Complex.normSq (X s k) : ℝ) : ℂ) ≠ 0 := by exact_mod_cast hz
        field_simp
    rw [Finset.sum_congr rfl fun s _ => hterm s]
    unfold tfBin
    rw [hpsd, hcsd]
    by_cases hz : ∑ s ∈ Finset.range S, c * Complex.normSq (X s k) = 0
    · rw [if_pos (by rw [hz, zero_div]), if_pos hz]
    · rw [if_neg (div_ne_zero hz hSr), if_neg hz]
      congr 1
      have : ((∑ s ∈ Finset.range S, c * Complex.normSq (X s k) : ℝ) : ℂ) ≠ 0 := by exact_mod_cast hz
      push_cast at this ⊢
      field_simp

example : ∃ cols, averagedTf ⟨1, 2, 0.5, fun L => List.replicate L 1, .none⟩ [("a", [1, 2, 3, 5])] [("b", [0, 1, 2, 3])] = .ok cols :=
  Props.Tf.C103_succeeds _ 4 _ _ (by simp) (by simp) (by simp) (by norm_num) (by norm_num) (by norm_num) (by norm_num)

end SST.Props.Segments
