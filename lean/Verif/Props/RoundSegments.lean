import Verif.Model.RoundSegments
import Verif.Props.RoundIndex

/-!
# Property C270: the segments of averaged spectra with rounding
-/

namespace SST.Round
open SST SST.Spatial SST.Tf SST.Dft SST.Corr

variable {u : ℝ} {A : Arith}

private theorem psdF_eq (o : Opts) (v : ℝ) (b : Bool) (cols : List (String × List ℝ)) (sc : String)
    (h : noverlapF A ((cols.headD ("", [])).2.length / o.navgs) o.overlap = pyInt ((((cols.headD ("", [])).2.length / o.navgs : ℕ) : ℝ) * v)) :
    averagedPsdF A o b cols sc = averagedPsd { o with overlap := v } b cols sc := by
  unfold averagedPsdF averagedPsd
  simp only [h]

private theorem tfF_eq (o : Opts) (v : ℝ) (ins outs : List (String × List ℝ))
    (h : noverlapF A ((ins.headD ("", [])).2.length / o.navgs) o.overlap = pyInt ((((ins.headD ("", [])).2.length / o.navgs : ℕ) : ℝ) * v)) :
    averagedTfF A o ins outs = averagedTf { o with overlap := v } ins outs := by
  unfold averagedTfF averagedTf
  simp only [h]
  rfl

private theorem prod_near (h : FloatLike u A) (L : ℕ) {v : ℝ} (hv : 0 ≤ v) : Near u 2 (L * v) (A.fl (L * A.fl v)) := by
  have h0 := u_nonneg h.rounds
  have a := near_fl h.rounds h.lt_one hv
  have L0 : (0 : ℝ) ≤ L := Nat.cast_nonneg L
  have m : Near u 1 (L * v) (L * A.fl v) := by
    constructor
    · have := mul_le_mul_of_nonneg_left a.1 L0
      linarith
    · have := mul_le_mul_of_nonneg_left a.2 L0
      linarith
  exact m.rnd h.rounds h.lt_one (mul_nonneg L0 hv)

private theorem noverlap_cases (h : FloatLike u A) (L : ℕ) {v : ℝ} (hv : 0 ≤ v) :
    ((∀ k : ℤ, (1 / (1 - u) ^ 2 - 1) * (L * v) < |L * v - k|) → noverlapF A L (A.fl v) = pyInt (L * v)) ∧
    ((1 / (1 - u) ^ 2 - 1) * (L * v) ≤ 1 → ∃ j : ℕ, |(j : ℤ) - ⌊L * v⌋| ≤ 1 ∧ noverlapF A L (A.fl v) = j) := by
  have h0 := u_nonneg h.rounds
  have q0 : (0 : ℝ) ≤ L * v := mul_nonneg (Nat.cast_nonneg L) hv
  have n := prod_near h L hv
  have v0 := n.nonneg h.lt_one q0
  have f := floor_near (near_diff h0 h.lt_one q0 n)
  unfold noverlapF
  rw [pyInt_of_nonneg v0, pyInt_of_nonneg q0]
  refine ⟨f.2, fun e => ⟨⌊A.fl (L * A.fl v)⌋.toNat, ?_⟩⟩
  rw [Int.toNat_of_nonneg (Int.floor_nonneg.2 v0)]
  exact ⟨f.1 e, rfl⟩

private theorem int_frac {L : ℕ} (hL : L ≠ 0) (j : ℕ) : pyInt ((L : ℝ) * ((j : ℝ) / L)) = j := by
  have : (L : ℝ) ≠ 0 := by exact_mod_cast hL
  rw [mul_div_cancel₀ _ this, pyInt_of_nonneg (Nat.cast_nonneg j)]
  exact Int.floor_natCast j

/-- C270 (the part that holds), power spectra: with `L = n // navgs` samples in a segment and the overlap `v` stored with rounding, `averaged_psd` uses the segments
of exact arithmetic if `L v` is not closer to a whole number than `(1 - u)⁻² - 1` times itself; and as long as that is at most 1, those of an overlap of `j`
samples, where `j` is at most one off.  Missing: overlaps of a whole number of samples (`C270_violated`). -/
theorem C270_psd_partial (h : FloatLike u A) (o : Opts) {v : ℝ} (hv : 0 ≤ v) (b : Bool) (cols : List (String × List ℝ)) (sc : String) {L : ℕ}
    (hL : L = (cols.headD ("", [])).2.length / o.navgs) (L0 : 0 < L) :
    ((∀ k : ℤ, (1 / (1 - u) ^ 2 - 1) * (L * v) < |L * v - k|) → averagedPsdF A { o with overlap := A.fl v } b cols sc = averagedPsd { o with overlap := v } b cols sc) ∧
    ((1 / (1 - u) ^ 2 - 1) * (L * v) ≤ 1 → ∃ j : ℕ, |(j : ℤ) - ⌊L * v⌋| ≤ 1 ∧
      averagedPsdF A { o with overlap := A.fl v } b cols sc = averagedPsd { o with overlap := (j : ℝ) / L } b cols sc) := by
  obtain ⟨c1, c2⟩ := noverlap_cases h L hv
  refine ⟨fun hk => psdF_eq _ _ b cols sc (by rw [← hL]; exact c1 hk), fun he => ?_⟩
  obtain ⟨j, hj, ej⟩ := c2 he
  exact ⟨j, hj, psdF_eq _ _ b cols sc (by rw [← hL, ej, int_frac L0.ne'])⟩

/-- C270 (the part that holds), transfer functions. -/
theorem C270_tf_partial (h : FloatLike u A) (o : Opts) {v : ℝ} (hv : 0 ≤ v) (ins outs : List (String × List ℝ)) {L : ℕ}
    (hL : L = (ins.headD ("", [])).2.length / o.navgs) (L0 : 0 < L) :
    ((∀ k : ℤ, (1 / (1 - u) ^ 2 - 1) * (L * v) < |L * v - k|) → averagedTfF A { o with overlap := A.fl v } ins outs = averagedTf { o with overlap := v } ins outs) ∧
    ((1 / (1 - u) ^ 2 - 1) * (L * v) ≤ 1 → ∃ j : ℕ, |(j : ℤ) - ⌊L * v⌋| ≤ 1 ∧
      averagedTfF A { o with overlap := A.fl v } ins outs = averagedTf { o with overlap := (j : ℝ) / L } ins outs) := by
  obtain ⟨c1, c2⟩ := noverlap_cases h L hv
  refine ⟨fun hk => tfF_eq _ _ ins outs (by rw [← hL]; exact c1 hk), fun he => ?_⟩
  obtain ⟨j, hj, ej⟩ := c2 he
  exact ⟨j, hj, tfF_eq _ _ ins outs (by rw [← hL, ej, int_frac L0.ne'])⟩

private theorem noverlap_half (hi : KeepsIntegers A.fl) (hh : A.fl (1 / 2) = 1 / 2) {L : ℕ} (hL : L ≤ 2 ^ 53) :
    noverlapF A L (A.fl (1 / 2)) = pyInt ((L : ℝ) * (1 / 2)) ∨ ∃ k : ℕ, L = 2 * k + 1 := by
  rcases Nat.even_or_odd' L with ⟨k, rfl | rfl⟩
  · left
    unfold noverlapF
    have e : ((2 * k : ℕ) : ℝ) * (1 / 2) = ((k : ℤ) : ℝ) := by push_cast; ring
    rw [hh, e, hi.int k (by rw [abs_of_nonneg (by positivity)]; omega)]
  · exact Or.inr ⟨k, rfl⟩

/-- C270 for half overlap (the default), when 1/2 is stored exactly and whole numbers stay as they are: exact for every record whose segments have at most `2⁵³` samples. -/
theorem C270_half_partial (h : FloatLike u A) (hi : KeepsIntegers A.fl) (hh : A.fl (1 / 2) = 1 / 2) (hu : u ≤ 2 ^ (-53 : ℤ)) (o : Opts) (b : Bool) (cols : List (String × List ℝ)) (sc : String)
    (ins outs : List (String × List ℝ)) (hc : (cols.headD ("", [])).2.length < 2 ^ 51) (hn : (ins.headD ("", [])).2.length < 2 ^ 51) :
    averagedPsdF A { o with overlap := A.fl (1 / 2) } b cols sc = averagedPsd { o with overlap := 1 / 2 } b cols sc ∧
    averagedTfF A { o with overlap := A.fl (1 / 2) } ins outs = averagedTf { o with overlap := 1 / 2 } ins outs := by
  have key : ∀ n : ℕ, n < 2 ^ 51 → noverlapF A (n / o.navgs) (A.fl (1 / 2)) = pyInt (((n / o.navgs : ℕ) : ℝ) * (1 / 2)) := by
    intro n hn
    have hL : n / o.navgs < 2 ^ 51 := (Nat.div_le_self _ _).trans_lt hn
    set L := n / o.navgs
    rcases noverlap_half hi hh (L := L) (by omega) with e | ⟨k, hk⟩
    · exact e
    refine (noverlap_cases h L (by norm_num)).1 fun m => ?_
    have Lr : (L : ℝ) ≤ 2 ^ 51 := by exact_mod_cast hL.le
    have L0 : (0 : ℝ) ≤ L := Nat.cast_nonneg L
    have far : (1 : ℝ) / 2 ≤ |(L : ℝ) * (1 / 2) - m| := by
      rw [hk]; push_cast
      rcases le_or_gt m k with hm | hm
      · have : (m : ℝ) ≤ k := by exact_mod_cast hm
        rw [abs_of_nonneg (by linarith)]; linarith
      · have : (k : ℝ) + 1 ≤ m := by exact_mod_cast hm
        rw [abs_of_nonpos (by linarith)]; linarith
    refine lt_of_lt_of_le ?_ far
    have h0 := u_nonneg h.rounds
    have up : (0 : ℝ) < (1 - (2 : ℝ) ^ (-53 : ℤ)) ^ 2 := by norm_num
    have p : (1 - (2 : ℝ) ^ (-53 : ℤ)) ^ 2 ≤ (1 - u) ^ 2 := pow_le_pow_left₀ (by norm_num) (by linarith) 2
    have g : 1 / (1 - u) ^ 2 ≤ 1 / (1 - (2 : ℝ) ^ (-53 : ℤ)) ^ 2 := one_div_le_one_div_of_le up p
    have g2 : 1 / (1 - (2 : ℝ) ^ (-53 : ℤ)) ^ 2 - 1 ≤ 3 * 2 ^ (-53 : ℤ) := by norm_num
    have g3 : (1 / (1 - u) ^ 2 - 1) * ((L : ℝ) * (1 / 2)) ≤ 3 * 2 ^ (-53 : ℤ) * ((2 : ℝ) ^ 51 * (1 / 2)) :=
      mul_le_mul (by linarith) (by linarith) (by positivity) (by norm_num)
    refine g3.trans_lt ?_
    norm_num
  exact ⟨psdF_eq _ _ b cols sc (key _ hc), tfF_eq _ _ ins outs (key _ hn)⟩

/-- A record of 180 samples, all 0 but sample 172. -/
private def spike : List ℝ := (List.range 180).map fun (i : ℕ) => if i = 172 then 1 else 0

private theorem spike_at (i : ℕ) : at0 spike i = if i = 172 then 1 else 0 := by
  unfold at0 spike
  by_cases h : i < 180
  · simp [h]
  · simp [h]; omega

private theorem spike_seg (s : ℕ) (hs : s ≤ 90) : (segment spike 90 s).length = 90 ∧ ∀ j, j < 90 → at0 (segment spike 90 s) j = if s + j = 172 then 1 else 0 := by
  have l : spike.length = 180 := by simp [spike]
  constructor
  · unfold segment; rw [List.length_take, List.length_drop, l]; omega
  · intro j hj
    rw [← spike_at]
    unfold segment at0
    rw [List.getElem?_take, if_pos hj, List.getElem?_drop]

private theorem spike_spectrum (s : ℕ) (hs : s ≤ 90) :
    Tf.spectrum (List.replicate 90 1) .none (segment spike 90 s) 0 = if 83 ≤ s then 1 else 0 := by
  obtain ⟨l, e⟩ := spike_seg s hs
  unfold Tf.spectrum
  rw [l]
  have t : ∀ j ∈ Finset.range 90, ((at0 (detrend .none (segment spike 90 s)) j * at0 (List.replicate 90 (1 : ℝ)) j : ℝ) : ℂ) * twiddle 90 ((j : ℤ) * ((0 : ℕ) : ℤ)) = if j = 172 - s then 1 else 0 := by
    intro j hj
    have hj' := Finset.mem_range.mp hj
    have w : at0 (List.replicate 90 (1 : ℝ)) j = 1 := by unfold at0; rw [List.getElem?_replicate, if_pos hj']; rfl
    have tw : twiddle 90 ((j : ℤ) * ((0 : ℕ) : ℤ)) = 1 := by simp [twiddle]
    have d : detrend .none (segment spike 90 s) = segment spike 90 s := rfl
    rw [d, e j hj', w, tw]
    by_cases hh : s + j = 172
    · rw [if_pos hh, if_pos (by omega)]; simp
    · rw [if_neg hh, if_neg (by omega)]; simp
  rw [Finset.sum_congr rfl t, Finset.sum_ite_eq']
  simp only [Finset.mem_range]
  by_cases hh : 83 ≤ s
  · rw [if_pos hh, if_pos (by omega)]
  · rw [if_neg hh, if_neg (by omega)]

/-- C270 fails: with segments of 90 samples and an overlap of 0.7, `90 * 0.7` is `62.99999999999999` with 53 digits, the segments overlap by 62 samples instead of 63 and the spectrum is another one. -/
theorem C270_violated : ∃ (o : Opts) (x : List ℝ), o.overlap = 0.7 ∧ o.navgs = 2 ∧ x.length = 180 ∧ (90 : ℝ) * 0.7 = 63 ∧ noverlapF ⟨round53, sum53⟩ 90 (round53 0.7) = 62 ∧
    averagedPsdF ⟨round53, sum53⟩ { o with overlap := round53 o.overlap } false [("a", x)] "density" ≠ averagedPsd o false [("a", x)] "density" := by
  have r7 : round53 0.7 = 6305039478318694 * 2 ^ (-53 : ℤ) := by
    rw [round53_eq (k := -1) (n := 6305039478318694)]
    · norm_num
    · rw [abs_of_pos (by norm_num)]; norm_num
    · rw [abs_of_pos (by norm_num)]; norm_num
    · rw [abs_lt]; norm_num
  have rp : round53 (90 * round53 0.7) = 8866461766385663 * 2 ^ (-47 : ℤ) := by
    have pp : (0 : ℝ) < 90 * round53 0.7 := by rw [r7]; norm_num
    rw [round53_eq (k := 5) (n := 8866461766385663)]
    · norm_num
    · rw [abs_of_pos pp, r7]; norm_num
    · rw [abs_of_pos pp, r7]; norm_num
    · rw [r7, abs_lt]; norm_num
  have n62 : noverlapF ⟨round53, sum53⟩ 90 (round53 0.7) = 62 := by
    unfold noverlapF
    push_cast
    simp only [rp]
    rw [pyInt_of_nonneg (by norm_num), Int.floor_eq_iff]
    norm_num
  have p63 : pyInt (((90 : ℕ) : ℝ) * 0.7) = 63 := by
    rw [pyInt_of_nonneg (by norm_num), Int.floor_eq_iff]
    norm_num
  let o : Opts := ⟨1, 2, 0.7, fun L => List.replicate L 1, .none⟩
  have ls : spike.length = 180 := by simp [spike]
  refine ⟨o, spike, rfl, rfl, ls, by norm_num, n62, ?_⟩
  have e1 : averagedPsdF ⟨round53, sum53⟩ { o with overlap := round53 o.overlap } false [("a", spike)] "density" = .ok [("a", (List.range 46).map fun (k : ℕ) => ((k : ℝ) / ((90 : ℕ) * 1),
      psd ((if k = 0 ∨ 2 * k = 90 then 1 else 2) * (1 / ((List.replicate 90 (1 : ℝ)).map fun v => v ^ 2).sum)) (spectra (List.replicate 90 1) .none 90 62 spike k)))] := by
    unfold averagedPsdF
    simp only [o, List.headD_cons, ls, Nat.reduceDiv, n62]
    norm_num
    intros; rfl
  have e2 : averagedPsd o false [("a", spike)] "density" = .ok [("a", (List.range 46).map fun (k : ℕ) => ((k : ℝ) / ((90 : ℕ) * 1),
      psd ((if k = 0 ∨ 2 * k = 90 then 1 else 2) * (1 / ((List.replicate 90 (1 : ℝ)).map fun v => v ^ 2).sum)) (spectra (List.replicate 90 1) .none 90 63 spike k)))] := by
    unfold averagedPsd
    simp only [o, List.headD_cons, ls, Nat.reduceDiv, p63]
    norm_num
    intros; rfl
  rw [e1, e2]
  intro he
  have he := Except.ok.inj he
  simp only [List.cons.injEq, Prod.mk.injEq, true_and, and_true] at he
  have h0 := congrArg (fun (l : List (ℝ × ℝ)) => (l[0]?).map Prod.snd) he
  simp only [List.getElem?_map, List.getElem?_range (show 0 < 46 by norm_num), Option.map_some, Option.some.injEq] at h0
  have s1 : segStarts spike.length 90 62 = [0, 28, 56, 84] := by rw [ls]; decide
  have s2 : segStarts spike.length 90 63 = [0, 27, 54, 81] := by rw [ls]; decide
  unfold spectra at h0
  rw [s1, s2] at h0
  simp only [List.map_cons, List.map_nil, spike_spectrum 0 (by norm_num), spike_spectrum 28 (by norm_num), spike_spectrum 56 (by norm_num), spike_spectrum 84 (by norm_num),
    spike_spectrum 27 (by norm_num), spike_spectrum 54 (by norm_num), spike_spectrum 81 (by norm_num)] at h0
  unfold psd at h0
  norm_num at h0

/-- C270 with segments of 100 samples and an overlap of 0.333, with 53 digits. -/
example (o : Opts) (ho : o.navgs = 2) (x : List ℝ) (hx : x.length = 200) :
    averagedPsdF ⟨round53, sum53⟩ { o with overlap := round53 0.333 } false [("a", x)] "density" = averagedPsd { o with overlap := 0.333 } false [("a", x)] "density" := by
  refine (C270_psd_partial float53 o (by norm_num) false [("a", x)] "density" (L := 100) (by simp [ho, hx]) (by norm_num)).1 fun k => ?_
  have : (1 / (1 - (2 : ℝ) ^ (-53 : ℤ)) ^ 2 - 1) * ((100 : ℕ) * 0.333) < 0.1 := by norm_num
  refine this.trans_le ?_
  push_cast
  rcases le_or_gt k 33 with hk | hk
  · have : (k : ℝ) ≤ 33 := by exact_mod_cast hk
    rw [abs_of_nonneg (by linarith)]; linarith
  · have : (34 : ℝ) ≤ k := by exact_mod_cast hk
    rw [abs_of_nonpos (by linarith)]; linarith

/-- C270 with 53 digits and half overlap. -/
example (o : Opts) (x : List ℝ) (hx : x.length < 2 ^ 51) :
    averagedPsdF ⟨round53, sum53⟩ { o with overlap := round53 (1 / 2) } true [("a", x)] "density" = averagedPsd { o with overlap := 1 / 2 } true [("a", x)] "density" := by
  have e : round53 (1 / 2) = 1 / 2 := by
    rw [round53_eq (k := -1) (n := 2 ^ 52)]
    · norm_num
    · rw [abs_of_pos (by norm_num)]; norm_num
    · rw [abs_of_pos (by norm_num)]; norm_num
    · norm_num
  exact (C270_half_partial float53 keeps53 e le_rfl o true [("a", x)] "density" [("a", x)] [("a", x)] hx hx).1

end SST.Round
