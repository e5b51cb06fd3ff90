import Verif.Props.Cmv
import Verif.Props.Corr
import Verif.Model.CmvXcorr
import Verif.Spec.CmvXcorr

/-!
# Properties C135, C136: cloud motion from the time series themselves

C33 and C34 start from the delays; here the delays are those that `compute_delays` finds in the signals.
-/

namespace SST.Props.Cmv
open SST SST.Cmv SST.Spec SST.Spatial

variable {ι : Type} [DecidableEq ι]

theorem mapM_mem_of {α β : Type} {f : α → Except PyErr β} : ∀ {l : List α} {r : List β},
    l.mapM f = .ok r → ∀ a ∈ l, ∃ y ∈ r, f a = .ok y := by
  intro l
  induction l with
  | nil => intro r _ a ha; simp at ha
  | cons b l ih =>
    intro r h a ha
    rw [List.mapM_cons] at h
    cases hb : f b with
    | error e => rw [hb] at h; cases h
    | ok y =>
      rw [hb] at h
      cases hl : l.mapM f with
      | error e => rw [hl] at h; cases h
      | ok ys =>
        rw [hl] at h
        cases h
        rcases List.mem_cons.1 ha with rfl | ha
        · exact ⟨y, by simp, hb⟩
        · obtain ⟨z, h1, h2⟩ := ih hl a ha
          exact ⟨z, by simp [h1], h2⟩

theorem pairs_either (l m : List ι) (a b : ι) (ha : a ∈ l) (hb : b ∈ l) (hm : a ∈ m ∨ b ∈ m) :
    (a, b) ∈ getPairs l (some m) true ∨ (b, a) ∈ getPairs l (some m) true := by
  obtain ⟨ix, -, h2, h3⟩ := C25_pairs l (some m) true
  obtain ⟨i, hi, rfl⟩ := List.mem_iff_getElem.1 ha
  obtain ⟨j, hj, rfl⟩ := List.mem_iff_getElem.1 hb
  have key : ∀ u v (hu : u < l.length) (hv : v < l.length), (u, v) ∈ ix → (l[u], l[v]) ∈ getPairs l (some m) true := by
    intro u v hu hv huv
    have : (l[u]?, l[v]?) ∈ ix.map fun p => (l[p.1]?, l[p.2]?) := List.mem_map.2 ⟨(u, v), huv, rfl⟩
    rw [← h3, List.getElem?_eq_getElem hu, List.getElem?_eq_getElem hv] at this
    obtain ⟨p, hp, e⟩ := List.mem_map.1 this
    simp only [Prod.mk.injEq, Option.some.injEq] at e
    rw [← e.1, ← e.2]
    exact hp
  rcases le_total i j with hij | hij
  · exact Or.inl (key i j hi hj ((h2 i j).2 ⟨hi, hj, by simpa using hij, Or.inr ⟨m, rfl, hm⟩⟩))
  · exact Or.inr (key j i hj hi ((h2 j i).2 ⟨hj, hi, by simpa using hij, Or.inr ⟨m, rfl, hm.symm⟩⟩))

/-! ## One pair of records -/

/-- The numbers in a record. -/
def wave (n : ℕ) (q : ℤ → ℝ) (c : ℝ) (m : ℤ) : List ℝ := (List.range n).map fun k : ℕ => c + q (k - m)

theorem record_filterMap (n : ℕ) (q : ℤ → ℝ) (c : ℝ) (m : ℤ) : (record n q c m).filterMap id = wave n q c m := by
  simp [record, wave, List.filterMap_map, Function.comp_def]

theorem record_none (n : ℕ) (q : ℤ → ℝ) (c : ℝ) (m : ℤ) : none ∉ record n q c m := by simp [record]

theorem wave_length (n : ℕ) (q : ℤ → ℝ) (c : ℝ) (m : ℤ) : (wave n q c m).length = n := by simp [wave]

theorem wave_affine (n : ℕ) (q : ℤ → ℝ) (c : ℝ) (m : ℤ) : PosAffine (wave n q 0 m) (wave n q c m) := by
  refine ⟨1, c, one_pos, ?_⟩
  simp only [wave, List.map_map]
  apply List.map_congr_left
  intro k _
  simp [add_comm]

theorem wave_sum (n : ℕ) (q : ℤ → ℝ) (c : ℝ) (m : ℤ) (h : ∑ k ∈ Finset.range n, q (k - m) = 0) : (wave n q c m).sum = n * c := by
  rw [wave, Corr.sum_map_range, Finset.sum_add_distrib, h]
  simp

theorem wave_ext (n : ℕ) (q : ℤ → ℝ) (m : ℤ) (h : ∀ k : ℤ, q (k - m) ≠ 0 → 0 ≤ k ∧ k < n) (z : ℤ) :
    ext (wave n q 0 m) z = q (z - m) := by
  unfold ext
  split_ifs with h1
  · simp [wave, Int.toNat_of_nonneg h1.1]
  · by_contra hne
    have := h z (Ne.symm hne)
    apply h1
    rw [wave_length]
    exact ⟨this.1, by omega⟩

theorem wave_delayed (n : ℕ) (q : ℤ → ℝ) (m m' : ℤ) (h : ∀ k : ℤ, q (k - m) ≠ 0 → 0 ≤ k ∧ k < n)
    (h' : ∀ k : ℤ, q (k - m') ≠ 0 → 0 ≤ k ∧ k < n) : Delayed (wave n q 0 m) (wave n q 0 m') (m' - m) := by
  refine ⟨by simp [wave_length], fun i => ?_⟩
  rw [wave_ext n q m' h', wave_ext n q m h]
  congr 1
  ring

theorem wave_nonzero (n : ℕ) (q : ℤ → ℝ) (m : ℤ) (h : 0 < ∑ k ∈ Finset.range n, q (k - m) ^ 2) : ∃ v ∈ wave n q 0 m, v ≠ 0 := by
  by_contra hne
  push Not at hne
  apply h.ne'
  apply Finset.sum_eq_zero
  intro k hk
  have := hne (0 + q (k - m)) (List.mem_map.2 ⟨k, by simpa using hk, rfl⟩)
  rw [zero_add] at this
  rw [this]
  ring

theorem not_const {x : List ℝ} (h0 : ∃ v ∈ x, v ≠ 0) (hs : x.sum = 0) : ¬ IsConst x := by
  intro hc
  obtain ⟨v, hv, hv0⟩ := h0
  have : x = List.replicate x.length v := List.eq_replicate_iff.2 ⟨rfl, fun w hw => hc w hw v hv⟩
  rw [this, List.sum_replicate, nsmul_eq_mul] at hs
  rcases mul_eq_zero.1 hs with h | h
  · have : x.length = 0 := by exact_mod_cast h
    rw [List.length_eq_zero_iff] at this
    rw [this] at hv
    simp at hv
  · exact hv0 h

/-- The delay between two records of one pattern is the difference of the arrival times, with correlation 1 and mean correlation 0. -/
theorem xcorrDelays_record (nanD : List (Option ℝ) → List (Option ℝ) → Option ℝ) (dt : ℝ) (hdt : 0 < dt) (n : ℕ) (q : ℤ → ℝ) (c c' : ℝ)
    (m m' : ℤ) (h : ∀ k : ℤ, q (k - m) ≠ 0 → 0 ≤ k ∧ k < n) (h' : ∀ k : ℤ, q (k - m') ≠ 0 → 0 ≤ k ∧ k < n)
    (hz : ∑ k ∈ Finset.range n, q (k - m) = 0) (hp : 0 < ∑ k ∈ Finset.range n, q (k - m) ^ 2) :
    xcorrDelays nanD dt (record n q c m) (record n q c' m') = (some ((m' - m : ℤ) * dt), some 1, some 0) := by
  have hd := wave_delayed n q m m' h h'
  have h0 := wave_nonzero n q m hp
  have hs : (wave n q 0 m).sum = 0 := by rw [wave_sum n q 0 m hz, mul_zero]
  obtain ⟨rs, hrs, hrl⟩ := Corr.C42_total dt [wave n q 0 m] [wave n q 0 m'] "loop" "coeff" rfl (Or.inl rfl) (Or.inl rfl)
  obtain ⟨r, hr, hr1, hr2⟩ := Corr.C40_delays dt hdt _ _ "loop" "coeff" rs hrs 0 _ _ rfl rfl (m' - m) hd h0 (Or.inr ⟨rfl, hs⟩)
  have h0' : ∃ v ∈ wave n q 0 m', v ≠ 0 := by
    have := Corr.delayed_energy hd
    have hpos := Corr.energyOf_pos h0
    rw [← this] at hpos
    by_contra hne
    push Not at hne
    apply hpos.ne'
    unfold energyOf
    apply List.sum_eq_zero
    intro v hv
    obtain ⟨w, hw, rfl⟩ := List.mem_map.1 hv
    rw [hne w hw]; ring
  obtain ⟨r', hr', hr3, -⟩ := Corr.C91_mean_corr dt _ _ "loop" rs hrs 0 _ _ rfl rfl hd.1 (not_const h0 hs)
    (not_const h0' ((Corr.delayed_sum hd).trans hs))
  rw [hr] at hr'
  cases hr'
  have haff := Corr.C41_delays dt [wave n q 0 m] [wave n q c m] [wave n q 0 m'] [wave n q c' m'] "loop"
    (by simpa using wave_affine n q c m) (by simpa using wave_affine n q c' m') rfl (Or.inl rfl)
  unfold xcorrDelays
  rw [if_neg (by simp [record_none]), record_filterMap, record_filterMap, haff, hrs]
  cases rs with
  | nil => simp at hr
  | cons r0 rest =>
    have : r0 = r := by simpa using hr
    subst this
    simp only [hr1, hr2, hr3, finiteOf]
    simp

theorem record_avg (n : ℕ) (hn : 0 < n) (q : ℤ → ℝ) (c : ℝ) (m : ℤ) (h : ∑ k ∈ Finset.range n, q (k - m) = 0) : avgOf (record n q c m) = c := by
  unfold avgOf
  rw [record_filterMap, wave_sum n q c m h, wave_length]
  have : (n : ℝ) ≠ 0 := by exact_mod_cast hn.ne'
  field_simp

theorem record_std (n : ℕ) (hn : 0 < n) (q : ℤ → ℝ) (c : ℝ) (m : ℤ) (h : ∑ k ∈ Finset.range n, q (k - m) = 0)
    (hs : 0.001 ^ 2 * n ≤ ∑ k ∈ Finset.range n, q (k - m) ^ 2) : ¬ StdBelow (record n q c m) 0.001 := by
  rintro ⟨-, hlt⟩
  rw [record_avg n hn q c m h, record_filterMap, wave_length, Real.sqrt_lt' (by norm_num), div_lt_iff₀ (by exact_mod_cast hn)] at hlt
  rw [wave, List.map_map, Corr.sum_map_range] at hlt
  simp only [Function.comp, add_sub_cancel_left] at hlt
  linarith

theorem record_max {n : ℕ} {q : ℤ → ℝ} {c lim : ℝ} {m : ℤ} (h : ∃ k : ℕ, k < n ∧ lim ≤ c + q (k - m)) : ¬ MaxBelow (record n q c m) lim := by
  rintro ⟨M, ⟨-, hM⟩, hlt⟩
  obtain ⟨k, hk, hkl⟩ := h
  have := hM (c + q (k - m)) (List.mem_map.2 ⟨k, by simpa using hk, rfl⟩)
  linarith

theorem record_variation {n : ℕ} (hn : 0 < n) {q : ℤ → ℝ} {c lim : ℝ} {m : ℤ} (hz : ∑ k ∈ Finset.range n, q (k - m) = 0) (hl : lim ≤ 1)
    (h : ∃ k : ℕ, k < n ∧ 0 < c + q (k - m) ∧ c ≤ (1 - lim) * (c + q (k - m))) : ¬ LowVariation (record n q c m) lim := by
  rintro ⟨M, ⟨-, hM⟩, -, hlt⟩
  obtain ⟨k, hk, h0, hkl⟩ := h
  have := hM (c + q (k - m)) (List.mem_map.2 ⟨k, by simpa using hk, rfl⟩)
  rw [record_avg n hn q c m hz] at hlt
  have hMp : 0 < M := h0.trans_le this
  have h1 : (1 - lim) * (c + q (k - m)) ≤ (1 - lim) * M := mul_le_mul_of_nonneg_left this (by linarith)
  have h2 : c / M ≤ 1 - lim := by rw [div_le_iff₀ hMp]; linarith
  linarith

/-! ## The whole computation -/

theorem dictGet?_mem {κ ν : Type} [DecidableEq κ] {d : List (κ × ν)} {k : κ} {v : ν} (h : dictGet? d k = some v) : (k, v) ∈ d := by
  unfold dictGet? at h
  obtain ⟨p, hp, rfl⟩ := Option.map_eq_some_iff.1 h
  have h1 := List.find?_some hp
  have h2 := List.mem_of_find?_eq_some hp
  simp only [decide_eq_true_eq] at h1
  subst h1
  exact h2

/-- The statistics of a pair of sites under a frozen pattern. -/
theorem statOf_frozen {n : ℕ} {dt : ℝ} {V : Vec} {q : ℤ → ℝ} {m : ι → ℤ} {c : ι → ℝ} {pos : List (ι × Vec)} {ts : List (ι × List (Option ℝ))}
    (hf : FrozenPattern n dt V q m c pos ts) (hdt : 0 < dt) (hn : 0 < n) (x : Ext) (nanD : List (Option ℝ) → List (Option ℝ) → Option ℝ)
    (hx : ∀ a b, x.delays "xcorr" a b = xcorrDelays nanD dt a b) (a b : ι) (s : PairStat ι) (h : statOf x ts pos "xcorr" (a, b) = .ok s) :
    s.a = a ∧ s.b = b ∧ (∃ pa pb, (a, pa) ∈ pos ∧ (b, pb) ∈ pos ∧ s.vec = (pb.1 - pa.1, pb.2 - pa.2)) ∧
      s.sigA = record n q (c a) (m a) ∧ s.sigB = record n q (c b) (m b) ∧ (∃ r ∈ ts, r.1 = a) ∧ (∃ r ∈ ts, r.1 = b) ∧
      s.delay = some ((m b - m a : ℤ) * dt) ∧ s.peak = some 1 ∧ s.meanCorr = some 0 ∧ PlaneWave V s := by
  unfold statOf at h
  simp only at h
  split at h
  · rename_i sa sb pa pb h1 h2 h3 h4
    have m1 := dictGet?_mem h1
    have m2 := dictGet?_mem h2
    have m3 := dictGet?_mem h3
    have m4 := dictGet?_mem h4
    have e1 : sa = record n q (c a) (m a) := hf.recorded _ m1
    have e2 : sb = record n q (c b) (m b) := hf.recorded _ m2
    have hpos : (0 : ℝ) < ∑ k ∈ Finset.range n, q (k - m a) ^ 2 := by
      refine lt_of_lt_of_le ?_ (hf.strong _ m1)
      have : (0 : ℝ) < n := by exact_mod_cast hn
      positivity
    have hd := xcorrDelays_record nanD dt hdt n q (c a) (c b) (m a) (m b) (hf.inside _ m1) (hf.inside _ m2) (hf.balanced _ m1) hpos
    rw [hx, e1, e2, hd] at h
    cases h
    obtain ⟨t0, ht⟩ := hf.arrival
    have ha := ht _ m3
    have hb := ht _ m4
    refine ⟨rfl, rfl, ⟨pa, pb, m3, m4, rfl⟩, rfl, rfl, ⟨_, m1, rfl⟩, ⟨_, m2, rfl⟩, rfl, rfl, rfl, ?_⟩
    simp only [PlaneWave, Option.some.injEq]
    push_cast
    simp only at ha hb
    rw [sub_mul, ha, hb]
    ring
  · cases h

/-- Options as the method sees them. -/
noncomputable def optionOf (options : Option Dict) (k : String) (dflt : ℝ) : ℝ := (dictGet? (options.getD []) k).getD dflt

theorem opt_of_valid {mth : String} (hm : mth = "jamaly" ∨ mth = "gagne") {options : Option Dict} {o : Dict}
    (hk : ∀ kv ∈ options.getD [], kv.1 ∈ (documented mth).map Prod.fst) (ho : (validateOptions mth options).1 = .ok o) {k : String} {v : ℝ}
    (hkv : (k, v) ∈ documented mth) : opt o k = optionOf options k v := by
  obtain ⟨o', ho', -, h⟩ := (C28_validation mth hm options).1 hk
  rw [ho] at ho'
  cases ho'
  unfold opt optionOf
  rw [h k v hkv]
  rfl

/-- If the statistics of all pairs are those of a frozen pattern, all rows of the table are plane waves and the two given pairs are GOOD. -/
theorem frozen_gagne_of (x : Ext) (dt : ℝ) (hdt : 0 < dt)
    (n : ℕ) (hn : 0 < n) (V : Vec) (q : ℤ → ℝ) (m : ι → ℤ) (c : ι → ℝ)
    (pos : List (ι × Vec)) (hnd : (pos.map Prod.fst).Nodup) (ts : List (ι × List (Option ℝ))) (hf : FrozenPattern n dt V q m c pos ts)
    (ref : RefArg ι) (method backend : String) (hm : method.toLower = "gagne") (bk : String) (hbk : bk = "xcorr" ∨ bk = "tf") (hb : backend.toLower = bk)
    (hstat : ∀ (a b : ι) (s : PairStat ι), statOf x ts pos bk (a, b) = .ok s →
      s.a = a ∧ s.b = b ∧ (∃ pa pb, (a, pa) ∈ pos ∧ (b, pb) ∈ pos ∧ s.vec = (pb.1 - pa.1, pb.2 - pa.2)) ∧
      s.sigA = record n q (c a) (m a) ∧ s.sigB = record n q (c b) (m b) ∧ (∃ r ∈ ts, r.1 = a) ∧ (∃ r ∈ ts, r.1 = b) ∧
      s.delay = some ((m b - m a : ℤ) * dt) ∧ s.peak = some 1 ∧ s.meanCorr = some 0 ∧ PlaneWave V s)
    (options : Option Dict)
    (hopt : ∀ kv ∈ options.getD [], kv.1 ∈ (documented "gagne").map Prod.fst)
    (hbright : ∀ r ∈ ts, ∃ k : ℕ, k < n ∧ optionOf options "ktlim" 0.4 ≤ c r.1 + q (k - m r.1))
    (a b a' b' : ι) (pa pb pa' pb' : Vec) (ha : (a, pa) ∈ pos) (hb1 : (b, pb) ∈ pos) (ha' : (a', pa') ∈ pos) (hb' : (b', pb') ∈ pos)
    (href : a ∈ ref.ids (pos.map Prod.fst) ∨ b ∈ ref.ids (pos.map Prod.fst))
    (href' : a' ∈ ref.ids (pos.map Prod.fst) ∨ b' ∈ ref.ids (pos.map Prod.fst))
    (hlag : m a ≠ m b) (hlag' : m a' ≠ m b') (hind : Independent (pb - pa) (pb' - pa')) :
    ∃ out, (computeCmv x ts pos ref method backend options).1 = .ok out ∧ (∀ r ∈ out.rows, PlaneWave V r.1) ∧
      ∃ r ∈ out.rows, ∃ s ∈ out.rows, r.2 = .good ∧ s.2 = .good ∧ Independent r.1.vec s.1.vec := by
  have hmem : ∀ {i : ι} {p : Vec}, (i, p) ∈ pos → i ∈ pos.map Prod.fst := fun h => List.mem_map.2 ⟨_, h, rfl⟩
  obtain ⟨-, -, -, h4⟩ := cmv_outcome x ts pos ref method backend options (Or.inr hm) (by rw [hb]; exact hbk)
  obtain ⟨out, hout⟩ := h4
    (by rcases href with h | h
        · exact ⟨a, hmem ha, h⟩
        · exact ⟨b, hmem hb1, h⟩) hf.series (by rw [hm]; exact hopt)
  refine ⟨out, hout, ?_⟩
  obtain ⟨stats, o, hprep, hval, hfin, -⟩ := computeCmv_ok hout
  rw [hm] at hval hfin
  have hprep' : (getPairs (pos.map Prod.fst) (some (ref.ids (pos.map Prod.fst))) true).mapM (statOf x ts pos bk) = .ok stats := by
    unfold prepare at hprep
    rw [if_neg (by simp [hm]), if_neg (by rcases hbk with h | h <;> simp [hb, h])] at hprep
    simp only [hb] at hprep
    split_ifs at hprep
    exact hprep
  have hkt := opt_of_valid (Or.inr rfl) hopt hval (k := "ktlim") (v := 0.4) (by simp [documented])
  obtain ⟨t, ht, hrows, -⟩ := C32_gagne_threshold x o stats
  rw [← hfin] at hrows
  have ht1 : t ≤ 1 := by rcases ht with ⟨rfl, _⟩ | ⟨rfl, _⟩ | ⟨rfl, _⟩ <;> norm_num
  -- every pair is a plane wave
  have hwave : ∀ s ∈ stats, PlaneWave V s := by
    intro s hs
    obtain ⟨p, -, hp⟩ := mapM_mem hprep' s hs
    exact (hstat p.1 p.2 s hp).2.2.2.2.2.2.2.2.2.2
  have hrow : ∀ r ∈ out.rows, r.1 ∈ stats := by
    intro r hr
    rw [hrows] at hr
    obtain ⟨s, hs, rfl⟩ := List.mem_map.1 hr
    exact hs
  -- a pair seen at different times is good
  have hgood : ∀ (a b : ι) (pa pb : Vec), (a, pa) ∈ pos → (b, pb) ∈ pos →
      (a ∈ ref.ids (pos.map Prod.fst) ∨ b ∈ ref.ids (pos.map Prod.fst)) → m a ≠ m b →
      ∃ r ∈ out.rows, r.2 = .good ∧ (r.1.vec = pb - pa ∨ r.1.vec = pa - pb) := by
    have core : ∀ (a b : ι) (pa pb : Vec), (a, pa) ∈ pos → (b, pb) ∈ pos → m a ≠ m b →
        (a, b) ∈ getPairs (pos.map Prod.fst) (some (ref.ids (pos.map Prod.fst))) true →
        ∃ r ∈ out.rows, r.2 = .good ∧ r.1.vec = pb - pa := by
      intro a b pa pb ha hb hab hp
      obtain ⟨s, hs, hst⟩ := mapM_mem_of hprep' _ hp
      obtain ⟨e1, e2, ⟨qa, qb, hqa, hqb, hv⟩, e3, e4, ⟨ra, hra, rfl⟩, ⟨rb, hrb, rfl⟩, e5, e6, e7, -⟩ := hstat a b s hst
      have hu : ∀ {i : ι} {u w : Vec}, (i, u) ∈ pos → (i, w) ∈ pos → u = w := by
        intro i u w hu hw
        have := List.inj_on_of_nodup_map hnd hu hw rfl
        exact (Prod.mk.inj this).2
      refine ⟨(s, pairFlag "gagne" o s), ?_, ?_, ?_⟩
      · rw [hrows]
        refine List.mem_map.2 ⟨s, hs, ?_⟩
        rw [if_pos ⟨1, e6, ht1⟩]
      · rw [C26_good_iff]
        refine ⟨?_, ?_, ?_, ?_, ?_, ?_, ?_, ?_, ?_⟩
        · rw [e1, e2]; rintro h; exact hab (by rw [h])
        · rw [e3]; exact record_std n hn q _ _ (hf.balanced _ hra) (hf.strong _ hra)
        · rw [e4]; exact record_std n hn q _ _ (hf.balanced _ hrb) (hf.strong _ hrb)
        · rw [e5]
          intro h
          have h := Option.some.inj h
          rcases mul_eq_zero.1 h with h | h
          · have : m rb.1 - m ra.1 = 0 := by exact_mod_cast h
            exact hab (by omega)
          · exact hdt.ne' h
        · rw [e6]; simp
        · rw [e7]; simp
        · rw [e3, hkt]; exact record_max (hbright _ hra)
        · rw [e4, hkt]; exact record_max (hbright _ hrb)
        · intro h; exact absurd h (by decide)
      · simp only
        rw [hv, hu hqa ha, hu hqb hb]
        rfl
    intro a b pa pb ha hb href hab
    rcases pairs_either _ _ a b (hmem ha) (hmem hb) href with h | h
    · obtain ⟨r, h1, h2, h3⟩ := core a b pa pb ha hb hab h
      exact ⟨r, h1, h2, Or.inl h3⟩
    · obtain ⟨r, h1, h2, h3⟩ := core b a pb pa hb ha (Ne.symm hab) h
      exact ⟨r, h1, h2, Or.inr h3⟩
  obtain ⟨r, hr1, hr2, hr3⟩ := hgood a b pa pb ha hb1 href hlag
  obtain ⟨s, hs1, hs2, hs3⟩ := hgood a' b' pa' pb' ha' hb' href' hlag'
  refine ⟨fun r hr => hwave _ (hrow r hr), r, hr1, s, hs1, hr2, hs2, ?_⟩
  unfold Independent at hind ⊢
  simp only [Prod.fst_sub, Prod.snd_sub] at hind
  rcases hr3 with h | h <;> rcases hs3 with h' | h' <;> rw [h, h'] <;> simp only [Prod.fst_sub, Prod.snd_sub] <;>
    (intro h0; apply hind; linarith)

/-- Under a frozen pattern all rows of the table are plane waves and the two given pairs are GOOD. -/
theorem frozen_gagne (x : Ext) (nanD : List (Option ℝ) → List (Option ℝ) → Option ℝ) (dt : ℝ) (hdt : 0 < dt)
    (hx : ∀ a b, x.delays "xcorr" a b = xcorrDelays nanD dt a b) (n : ℕ) (hn : 0 < n) (V : Vec) (q : ℤ → ℝ) (m : ι → ℤ) (c : ι → ℝ)
    (pos : List (ι × Vec)) (hnd : (pos.map Prod.fst).Nodup) (ts : List (ι × List (Option ℝ))) (hf : FrozenPattern n dt V q m c pos ts)
    (ref : RefArg ι) (method backend : String) (hm : method.toLower = "gagne") (hb : backend.toLower = "xcorr") (options : Option Dict)
    (hopt : ∀ kv ∈ options.getD [], kv.1 ∈ (documented "gagne").map Prod.fst)
    (hbright : ∀ r ∈ ts, ∃ k : ℕ, k < n ∧ optionOf options "ktlim" 0.4 ≤ c r.1 + q (k - m r.1))
    (a b a' b' : ι) (pa pb pa' pb' : Vec) (ha : (a, pa) ∈ pos) (hb1 : (b, pb) ∈ pos) (ha' : (a', pa') ∈ pos) (hb' : (b', pb') ∈ pos)
    (href : a ∈ ref.ids (pos.map Prod.fst) ∨ b ∈ ref.ids (pos.map Prod.fst))
    (href' : a' ∈ ref.ids (pos.map Prod.fst) ∨ b' ∈ ref.ids (pos.map Prod.fst))
    (hlag : m a ≠ m b) (hlag' : m a' ≠ m b') (hind : Independent (pb - pa) (pb' - pa')) :
    ∃ out, (computeCmv x ts pos ref method backend options).1 = .ok out ∧ (∀ r ∈ out.rows, PlaneWave V r.1) ∧
      ∃ r ∈ out.rows, ∃ s ∈ out.rows, r.2 = .good ∧ s.2 = .good ∧ Independent r.1.vec s.1.vec := by
  exact frozen_gagne_of x dt hdt n hn V q m c pos hnd ts hf ref method backend hm "xcorr" (Or.inl rfl) hb
    (fun a b s h => statOf_frozen hf hdt hn x nanD hx a b s h) options hopt hbright a b a' b' pa pb pa' pb' ha hb1 ha' hb' href href' hlag hlag' hind

/-- C135: a mean-free pattern carried by a constant wind `V` over the sites is recognised from the recorded series: with method gagne
and backend xcorr (an exact least-squares solver), `compute_cmv` returns exactly the speed and direction of `V`, if two pairs with
references in non-parallel directions see it at different times and no site is overcast. -/
theorem C135_gagne_from_series (x : Ext) (hls : ExactLsq x.leastsq) (nanD : List (Option ℝ) → List (Option ℝ) → Option ℝ) (dt : ℝ) (hdt : 0 < dt)
    (hx : ∀ a b, x.delays "xcorr" a b = xcorrDelays nanD dt a b) (n : ℕ) (hn : 0 < n) (V : Vec) (hV : V ≠ 0) (q : ℤ → ℝ) (m : ι → ℤ) (c : ι → ℝ)
    (pos : List (ι × Vec)) (hnd : (pos.map Prod.fst).Nodup) (ts : List (ι × List (Option ℝ))) (hf : FrozenPattern n dt V q m c pos ts)
    (ref : RefArg ι) (method backend : String) (hm : method.toLower = "gagne") (hb : backend.toLower = "xcorr") (options : Option Dict)
    (hopt : ∀ kv ∈ options.getD [], kv.1 ∈ (documented "gagne").map Prod.fst)
    (hbright : ∀ r ∈ ts, ∃ k : ℕ, k < n ∧ optionOf options "ktlim" 0.4 ≤ c r.1 + q (k - m r.1))
    (a b a' b' : ι) (pa pb pa' pb' : Vec) (ha : (a, pa) ∈ pos) (hb1 : (b, pb) ∈ pos) (ha' : (a', pa') ∈ pos) (hb' : (b', pb') ∈ pos)
    (href : IsRef ref a ∨ IsRef ref b)
    (href' : IsRef ref a' ∨ IsRef ref b')
    (hlag : m a ≠ m b) (hlag' : m a' ≠ m b') (hind : Independent (pb - pa) (pb' - pa')) :
    ∃ out, (computeCmv x ts pos ref method backend options).1 = .ok out ∧ out.speed = some (magnitude V) ∧
      ∃ t, out.angle = some t ∧ 0 ≤ t ∧ t < 2 * Real.pi ∧ pol2rect (magnitude V) t = V := by
  obtain ⟨out, hout, hwave, hpair⟩ := frozen_gagne x nanD dt hdt hx n hn V q m c pos hnd ts hf ref method backend hm hb options hopt hbright a b a' b' pa pb pa' pb' ha hb1 ha' hb' (href.imp (isRef_iff (List.mem_map.2 ⟨_, ha, rfl⟩)).1 (isRef_iff (List.mem_map.2 ⟨_, hb1, rfl⟩)).1) (href'.imp (isRef_iff (List.mem_map.2 ⟨_, ha', rfl⟩)).1 (isRef_iff (List.mem_map.2 ⟨_, hb', rfl⟩)).1) hlag hlag' hind
  exact ⟨out, hout, C33_gagne_exact x hls ts pos ref method backend hm options out hout V hV (fun r hr _ => hwave r hr) hpair⟩

/-- Jamaly recognises a frozen pattern, whatever the backend, if the delays of the pairs are exact. -/
theorem frozen_jamaly_of (x : Ext) (hmin : LocalMinimizer x.minimizeScalar) (dt : ℝ) (hdt : 0 < dt)
    (n : ℕ) (hn : 0 < n) (V : Vec) (hV : V ≠ 0) (q : ℤ → ℝ) (m : ι → ℤ) (c : ι → ℝ)
    (pos : List (ι × Vec)) (hnd : (pos.map Prod.fst).Nodup) (ts : List (ι × List (Option ℝ))) (hf : FrozenPattern n dt V q m c pos ts)
    (ref : RefArg ι) (method backend : String) (hm : method.toLower = "jamaly") (bk : String) (hbk : bk = "xcorr" ∨ bk = "tf") (hb : backend.toLower = bk)
    (hstat : ∀ (a b : ι) (s : PairStat ι), statOf x ts pos bk (a, b) = .ok s →
      s.a = a ∧ s.b = b ∧ (∃ pa pb, (a, pa) ∈ pos ∧ (b, pb) ∈ pos ∧ s.vec = (pb.1 - pa.1, pb.2 - pa.2)) ∧
      s.sigA = record n q (c a) (m a) ∧ s.sigB = record n q (c b) (m b) ∧ (∃ r ∈ ts, r.1 = a) ∧ (∃ r ∈ ts, r.1 = b) ∧
      s.delay = some ((m b - m a : ℤ) * dt) ∧ s.peak = some 1 ∧ s.meanCorr = some 0 ∧ PlaneWave V s)
    (options : Option Dict)
    (hopt : ∀ kv ∈ options.getD [], kv.1 ∈ (documented "jamaly").map Prod.fst)
    (hvar : optionOf options "var_s_lim" 0.05 ≤ 1) (hcorr : optionOf options "mincorr" 0.8 ≤ 1)
    (hbright : ∀ r ∈ ts, ∃ k : ℕ, k < n ∧ optionOf options "ktlim" 0.4 ≤ c r.1 + q (k - m r.1) ∧ 0 < c r.1 + q (k - m r.1) ∧
      c r.1 ≤ (1 - optionOf options "var_s_lim" 0.05) * (c r.1 + q (k - m r.1)))
    (a b a' b' : ι) (pa pb pa' pb' : Vec) (ha : (a, pa) ∈ pos) (hb1 : (b, pb) ∈ pos) (ha' : (a', pa') ∈ pos) (hb' : (b', pb') ∈ pos)
    (href : IsRef ref a ∨ IsRef ref b)
    (href' : IsRef ref a' ∨ IsRef ref b')
    (hlag : m a ≠ m b) (hlag' : m a' ≠ m b')
    (hvel : optionOf options "minvelocity" 0 < magnitude (pb - pa) / |((m b - m a : ℤ) : ℝ) * dt| ∧
      magnitude (pb - pa) / |((m b - m a : ℤ) : ℝ) * dt| < optionOf options "maxvelocity" 70)
    (hvel' : optionOf options "minvelocity" 0 < magnitude (pb' - pa') / |((m b' - m a' : ℤ) : ℝ) * dt| ∧
      magnitude (pb' - pa') / |((m b' - m a' : ℤ) : ℝ) * dt| < optionOf options "maxvelocity" 70) (hind : Independent (pb - pa) (pb' - pa')) :
    ∃ out, (computeCmv x ts pos ref method backend options).1 = .ok out ∧ out.speed = some (magnitude V) ∧ out.flag = .good ∧
      ∃ t, out.angle = some t ∧ 0 ≤ t ∧ t < 2 * Real.pi ∧ pol2rect (magnitude V) t = V := by
  have href := href.imp (isRef_iff (ids := pos.map Prod.fst) (List.mem_map.2 ⟨_, ha, rfl⟩)).1 (isRef_iff (ids := pos.map Prod.fst) (List.mem_map.2 ⟨_, hb1, rfl⟩)).1
  have href' := href'.imp (isRef_iff (ids := pos.map Prod.fst) (List.mem_map.2 ⟨_, ha', rfl⟩)).1 (isRef_iff (ids := pos.map Prod.fst) (List.mem_map.2 ⟨_, hb', rfl⟩)).1
  have hmem : ∀ {i : ι} {p : Vec}, (i, p) ∈ pos → i ∈ pos.map Prod.fst := fun h => List.mem_map.2 ⟨_, h, rfl⟩
  obtain ⟨-, -, -, h4⟩ := cmv_outcome x ts pos ref method backend options (Or.inl hm) (by rw [hb]; exact hbk)
  obtain ⟨out, hout⟩ := h4
    (by rcases href with h | h
        · exact ⟨a, hmem ha, h⟩
        · exact ⟨b, hmem hb1, h⟩) hf.series (by rw [hm]; exact hopt)
  refine ⟨out, hout, ?_⟩
  obtain ⟨stats, o, hprep, hval, hfin, -⟩ := computeCmv_ok hout
  rw [hm] at hval hfin
  have hprep' : (getPairs (pos.map Prod.fst) (some (ref.ids (pos.map Prod.fst))) true).mapM (statOf x ts pos bk) = .ok stats := by
    unfold prepare at hprep
    rw [if_neg (by simp [hm]), if_neg (by rcases hbk with h | h <;> simp [hb, h])] at hprep
    simp only [hb] at hprep
    split_ifs at hprep
    exact hprep
  have hkt := opt_of_valid (Or.inl rfl) hopt hval (k := "ktlim") (v := 0.4) (by simp [documented])
  have hvs := opt_of_valid (Or.inl rfl) hopt hval (k := "var_s_lim") (v := 0.05) (by simp [documented])
  have hmc := opt_of_valid (Or.inl rfl) hopt hval (k := "mincorr") (v := 0.8) (by simp [documented])
  have hlo := opt_of_valid (Or.inl rfl) hopt hval (k := "minvelocity") (v := 0) (by simp [documented])
  have hhi := opt_of_valid (Or.inl rfl) hopt hval (k := "maxvelocity") (v := 70) (by simp [documented])
  have hrows : out.rows = stats.map fun p => (p, pairFlag "jamaly" o p) := by
    rw [hfin, finish_rows, if_neg (by decide)]
  -- every pair is a plane wave
  have hwave : ∀ s ∈ stats, PlaneWave V s := by
    intro s hs
    obtain ⟨p, -, hp⟩ := mapM_mem hprep' s hs
    exact (hstat p.1 p.2 s hp).2.2.2.2.2.2.2.2.2.2
  have hrow : ∀ r ∈ out.rows, r.1 ∈ stats := by
    intro r hr
    rw [hrows] at hr
    obtain ⟨s, hs, rfl⟩ := List.mem_map.1 hr
    exact hs
  -- a pair seen at different times is good
  have hgood : ∀ (a b : ι) (pa pb : Vec), (a, pa) ∈ pos → (b, pb) ∈ pos →
      (a ∈ ref.ids (pos.map Prod.fst) ∨ b ∈ ref.ids (pos.map Prod.fst)) → m a ≠ m b →
      (optionOf options "minvelocity" 0 < magnitude (pb - pa) / |((m b - m a : ℤ) : ℝ) * dt| ∧
        magnitude (pb - pa) / |((m b - m a : ℤ) : ℝ) * dt| < optionOf options "maxvelocity" 70) →
      ∃ r ∈ out.rows, r.2 = .good ∧ (r.1.vec = pb - pa ∨ r.1.vec = pa - pb) := by
    have core : ∀ (a b : ι) (pa pb : Vec), (a, pa) ∈ pos → (b, pb) ∈ pos → m a ≠ m b →
        (optionOf options "minvelocity" 0 < magnitude (pb - pa) / |((m b - m a : ℤ) : ℝ) * dt| ∧
          magnitude (pb - pa) / |((m b - m a : ℤ) : ℝ) * dt| < optionOf options "maxvelocity" 70) →
        (a, b) ∈ getPairs (pos.map Prod.fst) (some (ref.ids (pos.map Prod.fst))) true →
        ∃ r ∈ out.rows, r.2 = .good ∧ r.1.vec = pb - pa := by
      intro a b pa pb ha hb hab hab2 hp
      obtain ⟨s, hs, hst⟩ := mapM_mem_of hprep' _ hp
      obtain ⟨e1, e2, ⟨qa, qb, hqa, hqb, hv⟩, e3, e4, ⟨ra, hra, rfl⟩, ⟨rb, hrb, rfl⟩, e5, e6, e7, -⟩ := hstat a b s hst
      have hu : ∀ {i : ι} {u w : Vec}, (i, u) ∈ pos → (i, w) ∈ pos → u = w := by
        intro i u w hu hw
        have := List.inj_on_of_nodup_map hnd hu hw rfl
        exact (Prod.mk.inj this).2
      have hvec : s.vec = pb - pa := by rw [hv, hu hqa ha, hu hqb hb]; rfl
      refine ⟨(s, pairFlag "jamaly" o s), ?_, ?_, ?_⟩
      · rw [hrows]
        exact List.mem_map.2 ⟨s, hs, rfl⟩
      · rw [C26_good_iff]
        refine ⟨?_, ?_, ?_, ?_, ?_, ?_, ?_, ?_, ?_⟩
        · rw [e1, e2]; rintro h; exact hab (by rw [h])
        · rw [e3]; exact record_std n hn q _ _ (hf.balanced _ hra) (hf.strong _ hra)
        · rw [e4]; exact record_std n hn q _ _ (hf.balanced _ hrb) (hf.strong _ hrb)
        · rw [e5]
          intro h
          have h := Option.some.inj h
          rcases mul_eq_zero.1 h with h | h
          · have : m rb.1 - m ra.1 = 0 := by exact_mod_cast h
            exact hab (by omega)
          · exact hdt.ne' h
        · rw [e6]; simp
        · rw [e7]; simp
        · rw [e3, hkt]; exact record_max (by obtain ⟨k, h1, h2, -⟩ := hbright _ hra; exact ⟨k, h1, h2⟩)
        · rw [e4, hkt]; exact record_max (by obtain ⟨k, h1, h2, -⟩ := hbright _ hrb; exact ⟨k, h1, h2⟩)
        · intro _
          rw [e3, e4, e5, e6, e7, hvs, hmc, hlo, hhi, hvec]
          refine ⟨?_, ?_, ?_, ?_⟩
          · obtain ⟨k, h1, -, h3, h4⟩ := hbright _ hra
            exact record_variation hn (hf.balanced _ hra) hvar ⟨k, h1, h3, h4⟩
          · obtain ⟨k, h1, -, h3, h4⟩ := hbright _ hrb
            exact record_variation hn (hf.balanced _ hrb) hvar ⟨k, h1, h3, h4⟩
          · rintro ⟨k, hk, h | ⟨mm, hmm, ⟨-, h⟩ | ⟨h, -⟩⟩⟩
            · cases hk; linarith
            · cases hk; cases hmm; norm_num at h; linarith
            · cases hk; norm_num at h
          · refine ⟨_, rfl, ?_, hab2⟩
            intro h
            rcases mul_eq_zero.1 h with h | h
            · have : m rb.1 - m ra.1 = 0 := by exact_mod_cast h
              exact hab (by omega)
            · exact hdt.ne' h
      · exact hvec
    intro a b pa pb ha hb href hab hab2
    rcases pairs_either _ _ a b (hmem ha) (hmem hb) href with h | h
    · obtain ⟨r, h1, h2, h3⟩ := core a b pa pb ha hb hab hab2 h
      exact ⟨r, h1, h2, Or.inl h3⟩
    · obtain ⟨r, h1, h2, h3⟩ := core b a pb pa hb ha (Ne.symm hab) (by
        have e1 : magnitude (pa - pb) = magnitude (pb - pa) := by
          unfold magnitude; congr 1; simp only [Prod.fst_sub, Prod.snd_sub]; ring
        have e2 : |((m a - m b : ℤ) : ℝ) * dt| = |((m b - m a : ℤ) : ℝ) * dt| := by
          rw [← abs_neg]; congr 1; push_cast; ring
        rw [e1, e2]; exact hab2) h
      exact ⟨r, h1, h2, Or.inr h3⟩
  obtain ⟨r, hr1, hr2, hr3⟩ := hgood a b pa pb ha hb1 href hlag hvel
  obtain ⟨s, hs1, hs2, hs3⟩ := hgood a' b' pa' pb' ha' hb' href' hlag' hvel'
  refine C34_jamaly_exact x hmin ts pos ref method backend hm options out hout V hV (fun r hr _ => hwave _ (hrow r hr))
    ⟨r, hr1, s, hs1, hr2, hs2, ?_⟩
  unfold Independent at hind ⊢
  simp only [Prod.fst_sub, Prod.snd_sub] at hind
  rcases hr3 with h | h <;> rcases hs3 with h' | h' <;> rw [h, h'] <;> simp only [Prod.fst_sub, Prod.snd_sub] <;>
    (intro h0; apply hind; linarith)

/-- C136: likewise with method jamaly (an optimiser that finds a minimum of the variance): speed and direction are exactly those of
`V` and the result is flagged good, if moreover the two pairs are within the velocity limits and the pattern is strong enough
against the background for the variation check. -/
theorem C136_jamaly_from_series (x : Ext) (hmin : LocalMinimizer x.minimizeScalar) (nanD : List (Option ℝ) → List (Option ℝ) → Option ℝ) (dt : ℝ) (hdt : 0 < dt)
    (hx : ∀ a b, x.delays "xcorr" a b = xcorrDelays nanD dt a b) (n : ℕ) (hn : 0 < n) (V : Vec) (hV : V ≠ 0) (q : ℤ → ℝ) (m : ι → ℤ) (c : ι → ℝ)
    (pos : List (ι × Vec)) (hnd : (pos.map Prod.fst).Nodup) (ts : List (ι × List (Option ℝ))) (hf : FrozenPattern n dt V q m c pos ts)
    (ref : RefArg ι) (method backend : String) (hm : method.toLower = "jamaly") (hb : backend.toLower = "xcorr") (options : Option Dict)
    (hopt : ∀ kv ∈ options.getD [], kv.1 ∈ (documented "jamaly").map Prod.fst)
    (hvar : optionOf options "var_s_lim" 0.05 ≤ 1) (hcorr : optionOf options "mincorr" 0.8 ≤ 1)
    (hbright : ∀ r ∈ ts, ∃ k : ℕ, k < n ∧ optionOf options "ktlim" 0.4 ≤ c r.1 + q (k - m r.1) ∧ 0 < c r.1 + q (k - m r.1) ∧
      c r.1 ≤ (1 - optionOf options "var_s_lim" 0.05) * (c r.1 + q (k - m r.1)))
    (a b a' b' : ι) (pa pb pa' pb' : Vec) (ha : (a, pa) ∈ pos) (hb1 : (b, pb) ∈ pos) (ha' : (a', pa') ∈ pos) (hb' : (b', pb') ∈ pos)
    (href : IsRef ref a ∨ IsRef ref b)
    (href' : IsRef ref a' ∨ IsRef ref b')
    (hlag : m a ≠ m b) (hlag' : m a' ≠ m b')
    (hvel : optionOf options "minvelocity" 0 < magnitude (pb - pa) / |((m b - m a : ℤ) : ℝ) * dt| ∧
      magnitude (pb - pa) / |((m b - m a : ℤ) : ℝ) * dt| < optionOf options "maxvelocity" 70)
    (hvel' : optionOf options "minvelocity" 0 < magnitude (pb' - pa') / |((m b' - m a' : ℤ) : ℝ) * dt| ∧
      magnitude (pb' - pa') / |((m b' - m a' : ℤ) : ℝ) * dt| < optionOf options "maxvelocity" 70) (hind : Independent (pb - pa) (pb' - pa')) :
    ∃ out, (computeCmv x ts pos ref method backend options).1 = .ok out ∧ out.speed = some (magnitude V) ∧ out.flag = .good ∧
      ∃ t, out.angle = some t ∧ 0 ≤ t ∧ t < 2 * Real.pi ∧ pol2rect (magnitude V) t = V := by
  exact frozen_jamaly_of x hmin dt hdt n hn V hV q m c pos hnd ts hf ref method backend hm "xcorr" (Or.inl rfl) hb
    (fun a b s h => statOf_frozen hf hdt hn x nanD hx a b s h) options hopt hvar hcorr hbright a b a' b' pa pb pa' pb' ha hb1 ha' hb' href href' hlag hlag' hvel hvel' hind

/-! ## A concrete case -/

/-- A pulse up and down. -/
noncomputable def pulse (k : ℤ) : ℝ := if k = 0 then 1 / 2 else if k = 1 then -1 / 2 else 0

/-- Three sites. -/
def threeSites : List (ℕ × Vec) := [(0, (0, 0)), (1, (10, 0)), (2, (0, 10))]

/-- Arrival of the pulse, in samples. -/
def arrives (i : ℕ) : ℤ := if i = 0 then 0 else 1

/-- Three samples at every site. -/
noncomputable def threeSeries : List (ℕ × List (Option ℝ)) :=
  [0, 1, 2].map fun i : ℕ => (i, record 3 pulse 0.6 (arrives i))

theorem threeSeries_mem {r : ℕ × List (Option ℝ)} (hr : r ∈ threeSeries) : r.1 = 0 ∨ r.1 = 1 ∨ r.1 = 2 := by
  simp only [threeSeries, List.map_cons, List.map_nil, List.mem_cons, List.not_mem_nil, or_false] at hr
  rcases hr with rfl | rfl | rfl <;> simp

theorem three_frozen : FrozenPattern 3 1 (5, 5) pulse arrives (fun _ : ℕ => 0.6) threeSites threeSeries where
  series := by simp [threeSites, threeSeries]
  recorded := by
    intro r hr
    simp only [threeSeries, List.map_cons, List.map_nil, List.mem_cons, List.not_mem_nil, or_false] at hr
    rcases hr with rfl | rfl | rfl <;> rfl
  arrival := by
    refine ⟨0, ?_⟩
    intro p hp
    simp only [threeSites, List.mem_cons, List.not_mem_nil, or_false] at hp
    rcases hp with rfl | rfl | rfl <;> norm_num [arrives]
  inside := by
    intro r hr k hk
    have : k - arrives r.1 = 0 ∨ k - arrives r.1 = 1 := by
      by_contra hne
      push Not at hne
      exact hk (by simp [pulse, hne.1, hne.2])
    rcases threeSeries_mem hr with h | h | h <;> rw [h] at this <;> simp [arrives] at this <;> constructor <;> push_cast <;> omega
  balanced := by
    intro r hr
    rcases threeSeries_mem hr with h | h | h <;> rw [h] <;> simp [Finset.sum_range_succ, arrives, pulse] <;> norm_num
  strong := by
    intro r hr
    rcases threeSeries_mem hr with h | h | h <;> rw [h] <;> simp [Finset.sum_range_succ, arrives, pulse] <;> norm_num

/-- The hypotheses of C135 hold in the concrete case: gagne finds the wind (5, 5) in the three series. -/
example (x : Ext) (hls : ExactLsq x.leastsq) (nanD : List (Option ℝ) → List (Option ℝ) → Option ℝ)
    (hx : ∀ a b, x.delays "xcorr" a b = xcorrDelays nanD 1 a b) :
    ∃ out, (computeCmv x threeSeries threeSites .none "gagne" "xcorr" none).1 = .ok out ∧ out.speed = some (magnitude (5, 5)) := by
  obtain ⟨out, h1, h2, -⟩ := C135_gagne_from_series x hls nanD 1 one_pos hx 3 (by norm_num) (5, 5) (by simp) pulse arrives (fun _ => 0.6)
    threeSites (by simp [threeSites]) threeSeries three_frozen .none "gagne" "xcorr" (by decide +kernel) (by decide +kernel) none (by simp)
    (by
      intro r hr
      rcases threeSeries_mem hr with h | h | h <;> rw [h]
      · exact ⟨0, by norm_num, by norm_num [optionOf, dictGet?, pulse, arrives]⟩
      · exact ⟨1, by norm_num, by norm_num [optionOf, dictGet?, pulse, arrives]⟩
      · exact ⟨1, by norm_num, by norm_num [optionOf, dictGet?, pulse, arrives]⟩)
    0 1 0 2 (0, 0) (10, 0) (0, 0) (0, 10) (by simp [threeSites]) (by simp [threeSites]) (by simp [threeSites]) (by simp [threeSites])
    (Or.inl (by simp [IsRef])) (Or.inl (by simp [IsRef])) (by simp [arrives]) (by simp [arrives])
    (by simp [Independent])
  exact ⟨out, h1, h2⟩

/-- The hypotheses of C136 hold in the concrete case. -/
example (x : Ext) (hmin : LocalMinimizer x.minimizeScalar) (nanD : List (Option ℝ) → List (Option ℝ) → Option ℝ)
    (hx : ∀ a b, x.delays "xcorr" a b = xcorrDelays nanD 1 a b) :
    ∃ out, (computeCmv x threeSeries threeSites .none "jamaly" "xcorr" none).1 = .ok out ∧ out.speed = some (magnitude (5, 5)) := by
  have e1 : magnitude (((10 : ℝ), (0 : ℝ)) - (0, 0)) = 10 := by
    unfold magnitude; rw [show ((10 : ℝ), (0 : ℝ)) - (0, 0) = (10, 0) by simp]; simp
  have e2 : magnitude (((0 : ℝ), (10 : ℝ)) - (0, 0)) = 10 := by
    unfold magnitude; rw [show ((0 : ℝ), (10 : ℝ)) - (0, 0) = (0, 10) by simp]; simp
  obtain ⟨out, h1, h2, -⟩ := C136_jamaly_from_series x hmin nanD 1 one_pos hx 3 (by norm_num) (5, 5) (by simp) pulse arrives (fun _ => 0.6)
    threeSites (by simp [threeSites]) threeSeries three_frozen .none "jamaly" "xcorr" (by decide +kernel) (by decide +kernel) none (by simp)
    (by norm_num [optionOf, dictGet?]) (by norm_num [optionOf, dictGet?])
    (by
      intro r hr
      rcases threeSeries_mem hr with h | h | h <;> rw [h]
      · exact ⟨0, by norm_num, by norm_num [optionOf, dictGet?, pulse, arrives]⟩
      · exact ⟨1, by norm_num, by norm_num [optionOf, dictGet?, pulse, arrives]⟩
      · exact ⟨1, by norm_num, by norm_num [optionOf, dictGet?, pulse, arrives]⟩)
    0 1 0 2 (0, 0) (10, 0) (0, 0) (0, 10) (by simp [threeSites]) (by simp [threeSites]) (by simp [threeSites]) (by simp [threeSites])
    (Or.inl (by simp [IsRef])) (Or.inl (by simp [IsRef])) (by simp [arrives]) (by simp [arrives])
    (by rw [e1]; norm_num [optionOf, dictGet?, arrives]) (by rw [e2]; norm_num [optionOf, dictGet?, arrives])
    (by simp [Independent])
  exact ⟨out, h1, h2⟩

end SST.Props.Cmv
