import Verif.Props.Cam
import Verif.Props.Apply
import Verif.Props.TfDelay
import Verif.Spec.PlantMean

/-!
# Properties C180, C181: the CAM filter and the mean of the plant

Specifications: `Spec/PlantMean.lean`.
-/

namespace SST.Props.PlantMean
open SST SST.Dft SST.Tf SST.Corr SST.Filters SST.Spatial SST.PlantMean

/-! ## Applying a filter that is known at the frequencies of the data -/

/-- A filter that has the value `G k` at each frequency of the data turns `x` into the series with the transform
`G k` times the one of `x`. -/
private theorem apply_of_nodes {dt : ℝ} (hdt : dt ≠ 0) {x y : List ℝ} (hx : 2 ≤ x.length) (hy : y.length = x.length) {filt : List (ℝ × ℂ)}
    (hd : (filt.map Prod.fst).Nodup) (G : ℕ → ℂ)
    (hf : ∀ k, k < x.length → ((binNumber x.length k : ℝ) / (x.length * dt), G k) ∈ filt)
    (hG : ∀ k, k < x.length → dftR y k = G k * dftR x k) : applyFilter dt x filt = .ok y := by
  have hn : 0 < x.length := by omega
  have hnr : (x.length : ℝ) ≠ 0 := by exact_mod_cast hn.ne'
  have hl : 2 ≤ filt.length := by
    have m0 := hf 0 hn
    have m1 := hf 1 (by omega)
    have hne : ((binNumber x.length 1 : ℤ) : ℝ) / (x.length * dt) ≠ 0 := by
      refine div_ne_zero ?_ (mul_ne_zero hnr hdt)
      unfold binNumber
      split_ifs with h
      · simp
      · have : x.length = 2 := by omega
        rw [this]; norm_num
    have h0 : ((binNumber x.length 0 : ℤ) : ℝ) / (x.length * dt) = 0 := by
      unfold binNumber; rw [if_pos (by omega)]; simp
    rcases filt with _ | ⟨a, _ | ⟨b, rest⟩⟩
    · simp at m0
    · exfalso
      rw [List.mem_singleton] at m0 m1
      apply hne
      rw [← m0] at m1
      exact (Prod.mk.inj m1).1.trans h0
    · simp
  have hmem : ∀ f ∈ fftfreq x.length dt, ∃ k, k < x.length ∧ f = (binNumber x.length k : ℝ) / (x.length * dt) := by
    intro f h
    unfold fftfreq at h
    obtain ⟨k, hk, rfl⟩ := List.mem_map.1 h
    exact ⟨k, List.mem_range.1 hk, rfl⟩
  have hr : ∀ f ∈ fftfreq x.length dt, (∃ p ∈ filt, p.1 ≤ f) ∧ (∃ p ∈ filt, f ≤ p.1) := by
    intro f h
    obtain ⟨k, hk, rfl⟩ := hmem f h
    exact ⟨⟨_, hf k hk, le_rfl⟩, ⟨_, hf k hk, le_rfl⟩⟩
  obtain ⟨H, hH⟩ := (Props.Tf.C53_range filt hd hl _).2 hr
  rw [applyFilter_core hx (not_above hr) hH]
  congr 1
  apply list_ext_at0 (by simp [hy])
  intro j hj
  simp only [List.length_map, List.length_range] at hj
  rw [at0_range_map _ hj]
  have hinv := inverse_dftR y (m := j) (by rw [hy]; exact hj)
  rw [hy] at hinv
  have : outC x H j = ((at0 y j : ℝ) : ℂ) := by
    rw [← hinv]
    unfold outC
    congr 1
    apply Finset.sum_congr rfl
    intro k hk
    have hk' := Finset.mem_range.1 hk
    have hg := fftfreq_get (dt := dt) hk'
    rw [node_value hd hl hH hg (hf _ hk'), hG k hk']
    ring
  rw [this, Complex.ofReal_re]

/-! ## The transform of the mean -/

private theorem later_eq (x : List ℝ) (m : ℤ) {t : ℕ} (ht : t < x.length) : later x m t = at0 (roll x m) t := by
  rw [at0_roll x m ht]; rfl

private theorem dft_mean (x : List ℝ) (hn : 0 < x.length) (ms : List ℤ) (k : ℕ) :
    dftR (plantMean x ms) k = ((ms.map fun m => twiddle x.length (m * k)).sum / ms.length) * dftR x k := by
  have hl : (plantMean x ms).length = x.length := by simp [plantMean]
  have e : ∀ l : List ℤ, ∑ j ∈ Finset.range x.length, (((l.map fun m => later x m j).sum : ℝ) : ℂ) * twiddle x.length (j * k) =
      (l.map fun m => twiddle x.length (m * k)).sum * dftR x k := by
    intro l
    induction l with
    | nil => simp
    | cons m l ih =>
      simp only [List.map_cons, List.sum_cons, Complex.ofReal_add, add_mul, Finset.sum_add_distrib]
      rw [ih]
      congr 1
      rw [← Props.Apply.dftR_roll x m k hn]
      unfold dftR
      rw [roll_length]
      apply Finset.sum_congr rfl
      intro j hj
      rw [later_eq x m (Finset.mem_range.1 hj)]
  rw [div_mul_eq_mul_div, ← e ms]
  unfold dftR
  rw [hl, Finset.sum_div]
  apply Finset.sum_congr rfl
  intro j hj
  unfold plantMean
  rw [at0_range_map _ (Finset.mem_range.1 hj)]
  push_cast
  ring

/-! ## The plant on the grid -/

open Classical in
private noncomputable def marks (N : ℕ) (J : List ℕ) : List ℝ := (List.range N).map fun (j : ℕ) => if j ∈ J then (1 : ℝ) else 0

private theorem range_sum {α : Type} [AddCommMonoid α] (N : ℕ) (g : ℕ → α) : ((List.range N).map g).sum = ∑ j ∈ Finset.range N, g j := by
  induction N with
  | zero => rfl
  | succ n ih => rw [List.range_succ, List.map_append, List.sum_append, ih, Finset.sum_range_succ]; simp

private theorem sum_marks {N : ℕ} {J : List ℕ} (hJ : J.Nodup) (hN : ∀ j ∈ J, j < N) (g : ℕ → ℂ) :
    ∑ j ∈ Finset.range N, (((at0 (marks N J) j : ℝ) : ℂ) * g j) = (J.map g).sum := by
  classical
  have h1 : ∀ j ∈ Finset.range N, ((at0 (marks N J) j : ℝ) : ℂ) * g j = if j ∈ J.toFinset then g j else 0 := by
    intro j hj
    unfold marks
    rw [at0_range_map _ (Finset.mem_range.1 hj)]
    by_cases h : j ∈ J
    · rw [if_pos h, if_pos (List.mem_toFinset.2 h)]; simp
    · rw [if_neg h, if_neg (by rw [List.mem_toFinset]; exact h)]; simp
  rw [Finset.sum_congr rfl h1, Finset.sum_ite_mem, Finset.inter_eq_right.2, List.sum_toFinset _ hJ]
  intro j hj
  exact Finset.mem_range.2 (hN j (List.mem_toFinset.1 hj))

private theorem marks_sum {N : ℕ} {J : List ℕ} (hJ : J.Nodup) (hN : ∀ j ∈ J, j < N) : (marks N J).sum = J.length := by
  have h := sum_marks hJ hN (fun _ => 1)
  have h2 : (((marks N J).sum : ℝ) : ℂ) = ((J.length : ℝ) : ℂ) := by
    have : (marks N J).sum = ∑ j ∈ Finset.range N, at0 (marks N J) j := by
      have := range_sum N (fun j => at0 (marks N J) j)
      rw [← this]
      congr 1
      apply list_ext_at0
      · simp [marks]
      · intro j hj
        simp only [marks, List.length_map, List.length_range] at hj
        rw [at0_range_map _ hj]
    rw [this]
    push_cast
    simp only [mul_one] at h
    rw [h]
    simp
  exact_mod_cast h2

/-- Index on the grid of the site reached after `m` samples. -/
private def idx (q K : ℕ) (m : ℤ) : ℕ := (q * m + K).toNat

private theorem plant_eq {ms : List ℤ} {q K : ℕ} {M : ℤ} {dx : ℝ} (hdx : 0 < dx) (hM : 2 * (M : ℝ) = (2 * K : ℕ) * dx)
    (hin : ∀ m ∈ ms, -(K : ℤ) ≤ q * m) :
    get1dPlant (ms.map fun (m : ℤ) => (q : ℝ) * m * dx) 0 none "square" dx (2 * M) =
      .ok (marks (2 * K) (ms.map (idx q K)), centredGrid (2 * K) dx) := by
  classical
  obtain ⟨plant, xs, h, hp⟩ := Props.Filters.C48_square (ms.map fun (m : ℤ) => (q : ℝ) * m * dx) 0 none "square" (by decide +kernel) dx (2 * M)
  have hxs : xs = centredGrid (2 * K) dx := by
    have : xs = xVec (2 * M) dx := by
      unfold get1dPlant at h
      simp only at h
      rw [if_pos (by decide +kernel)] at h
      exact (Prod.mk.inj (Except.ok.inj h)).2.symm
    rw [this]
    exact xVec_centred M (2 * K) dx hdx hM
  have hlen : plant.length = xs.length := by
    unfold get1dPlant at h
    simp only at h
    rw [if_pos (by decide +kernel)] at h
    obtain ⟨h1, h2⟩ := Prod.mk.inj (Except.ok.inj h)
    rw [← h1, ← h2]
    exact fold_length (fun c x p => if c - (none : Option ℝ).getD dx / 2 ≤ x ∧ x < c + (none : Option ℝ).getD dx / 2 then 1 else p) _ _ _ (by simp)
  rw [h, hxs]
  congr 2
  apply List.ext_getElem?
  intro j
  by_cases hj : j < 2 * K
  · have hx : xs[j]? = some (-(((2 * K : ℕ) : ℝ) * dx / 2) + j * dx) := by
      rw [hxs]; unfold centredGrid; rw [List.getElem?_map, List.getElem?_range hj]; rfl
    rw [hp j _ hx]
    unfold marks
    rw [List.getElem?_map, List.getElem?_range hj, Option.map_some]
    congr 1
    refine if_congr ?_ rfl rfl
    constructor
    · rintro ⟨c, hc, h1, h2⟩
      obtain ⟨m, hm, rfl⟩ := List.mem_map.1 hc
      refine List.mem_map.2 ⟨m, hm, ?_⟩
      have hk := hin m hm
      simp only [Option.getD_none, sub_zero] at h1 h2
      push_cast at h1 h2
      have h3 : ((q * m - 1 : ℤ) : ℝ) < ((j - K : ℤ) : ℝ) := by
        push_cast
        by_contra hc
        push Not at hc
        nlinarith
      have h4 : ((j - K : ℤ) : ℝ) < ((q * m + 1 : ℤ) : ℝ) := by
        push_cast
        by_contra hc
        push Not at hc
        nlinarith
      have h3' : (q * m - 1 : ℤ) < j - K := by exact_mod_cast h3
      have h4' : (j - K : ℤ) < q * m + 1 := by exact_mod_cast h4
      unfold idx
      omega
    · intro hc
      obtain ⟨m, hm, hj'⟩ := List.mem_map.1 hc
      have hk := hin m hm
      refine ⟨_, List.mem_map.2 ⟨m, hm, rfl⟩, ?_⟩
      have h5 : (j : ℤ) = q * m + K := by unfold idx at hj'; omega
      have h6 : (j : ℝ) = q * m + K := by exact_mod_cast h5
      simp only [Option.getD_none, sub_zero, h6]
      push_cast
      constructor <;> nlinarith
  · rw [List.getElem?_eq_none_iff.2 (by rw [hlen, hxs]; simp [centredGrid]; omega),
      List.getElem?_eq_none_iff.2 (by simp [marks]; omega)]

private theorem response_marks {N : ℕ} {J : List ℕ} (hJ : J.Nodup) (hN : ∀ j ∈ J, j < N) (dx V f : ℝ) :
    response (marks N J) (centredGrid N dx) V f =
      (J.map fun (j : ℕ) => Complex.exp (-(2 * Real.pi * f * (-((N : ℝ) * dx / 2) + j * dx) / V : ℝ) * Complex.I)).sum / (J.length : ℝ) := by
  unfold response
  rw [marks_sum hJ hN, ← sum_marks hJ hN, ← range_sum]
  congr 2
  apply List.ext_getElem?
  intro j
  by_cases hj : j < N
  · rw [List.getElem?_zipWith, List.getElem?_map, List.getElem?_range hj]
    have h1 : (marks N J)[j]? = some (at0 (marks N J) j) := by
      unfold at0
      rw [List.getElem?_eq_getElem (by simp [marks]; exact hj)]; rfl
    have h2 : (centredGrid N dx)[j]? = some (-((N : ℝ) * dx / 2) + j * dx) := by
      unfold centredGrid; rw [List.getElem?_map, List.getElem?_range hj]; rfl
    rw [h1, h2]; rfl
  · rw [List.getElem?_eq_none_iff.2 (by simp [marks, centredGrid]; omega), List.getElem?_eq_none_iff.2 (by simp; omega)]

/-! ## The filter of the plant -/

private theorem project_sites {sites : List (ℝ × ℝ)} {ms : List ℤ} {ref dir : ℝ × ℝ} {V dt dx : ℝ} {q : ℕ} (hd : dir ≠ 0) (hq : V * dt = q * dx)
    (h : ReachedAfter sites ms ref dir V dt) :
    projectVectors (computeVectors (sites.map Prod.fst) (sites.map Prod.snd) ref []) dir = ms.map fun (m : ℤ) => some ((q : ℝ) * m * dx) := by
  have hm : magnitude dir ≠ 0 := (magnitude_pos hd).ne'
  have hm' : Real.sqrt (dir.1 ^ 2 + dir.2 ^ 2) ≠ 0 := hm
  unfold ReachedAfter at h
  unfold projectVectors computeVectors unit
  rw [if_neg hm]
  induction h with
  | nil => rfl
  | @cons p m _ _ hs _ ih =>
    simp only [List.map_cons, List.zip_cons_cons]
    rw [ih]
    congr 1
    simp only [Option.map_some, Option.some.injEq]
    unfold magnitude
    field_simp
    linear_combination hs + (m * Real.sqrt (dir.1 ^ 2 + dir.2 ^ 2)) * hq

/-- The filter of the plant: at each of its frequencies the mean of the delays of the sites. -/
private theorem cam_of_sites {sites : List (ℝ × ℝ)} {ms : List ℤ} {ref dir : ℝ × ℝ} {V dt dx : ℝ} {q K : ℕ} {M : ℤ} (hd : dir ≠ 0)
    (hdx : 0 < dx) (hV : 0 < V) (hK : 0 < K) (hq0 : 0 < q) (hq : V * dt = q * dx) (hM : 2 * (M : ℝ) = (2 * K : ℕ) * dx)
    (h : ReachedAfter sites ms ref dir V dt) (hne : ms ≠ []) (hnd : ms.Nodup) (hin : ∀ m ∈ ms, -(K : ℤ) ≤ q * m ∧ q * m < K) :
    getCamfilter (sites.map Prod.fst) (sites.map Prod.snd) V dir ref none "square" dx (2 * M) =
      .ok ((List.range (2 * K)).map fun (k : ℕ) => ((binNumber (2 * K) k : ℝ) * V / ((2 * K : ℕ) * dx),
        some ((ms.map fun (m : ℤ) => Complex.exp (-(2 * Real.pi * ((binNumber (2 * K) k : ℝ) * V / ((2 * K : ℕ) * dx)) * (q * m * dx) / V : ℝ) * Complex.I)).sum /
          ms.length))) := by
  have hJ : (ms.map (idx q K)).Nodup := by
    refine (List.nodup_map_iff_inj_on hnd).2 ?_
    intro a ha b hb hab
    have h1 := (hin a ha).1
    have h2 := (hin b hb).1
    unfold idx at hab
    have h3 : (q : ℤ) * a = q * b := by omega
    exact mul_left_cancel₀ (by exact_mod_cast hq0.ne') h3
  have hN : ∀ j ∈ ms.map (idx q K), j < 2 * K := by
    intro j hj
    obtain ⟨m, hm, rfl⟩ := List.mem_map.1 hj
    have := hin m hm
    unfold idx
    omega
  have hl : (marks (2 * K) (ms.map (idx q K))).length = 2 * K := by simp [marks]
  have hs : (marks (2 * K) (ms.map (idx q K))).sum ≠ 0 := by
    rw [marks_sum hJ hN, List.length_map]
    exact_mod_cast fun h0 => hne (List.length_eq_zero_iff.1 h0)
  have hsn : sites.map Prod.fst ≠ [] := by
    intro h0
    rw [List.map_eq_nil_iff] at h0
    subst h0
    exact hne (by cases h; rfl)
  unfold getCamfilter
  rw [if_neg hsn]
  simp only
  rw [project_sites hd hq h]
  have e1 : (ms.map fun (m : ℤ) => some ((q : ℝ) * m * dx)).filterMap id = ms.map fun (m : ℤ) => (q : ℝ) * m * dx := by
    rw [List.filterMap_map]
    show List.filterMap (fun (m : ℤ) => some ((q : ℝ) * m * dx)) ms = _
    rw [List.filterMap_eq_map']
  rw [e1, plant_eq hdx hM (fun m hm => (hin m hm).1)]
  show Except.map _ (camfilter _ _ _) = _
  have hsh : ¬ (("square" : String).toLower = "gaussian" ∧ (none : Option ℝ) ∈ ms.map fun (m : ℤ) => some ((q : ℝ) * m * dx)) := by simp
  simp only [if_neg hsh]
  obtain ⟨out, ho, hv⟩ := Props.Cam.C108_centred_partial _ (2 * K) hl (by omega) dx V hdx hV.ne' hs
  have ho' := ho
  rw [centredGrid_eq, camfilter_grid hl (by omega) hdx hV.ne' hs] at ho'
  have e := (Except.ok.inj ho').symm
  rw [ho]
  show Except.ok _ = _
  congr 1
  rw [e]
  apply List.map_congr_left
  intro k hk
  have hval := hv _ (by rw [e]; exact List.mem_map.2 ⟨k, hk, rfl⟩)
  simp only at hval
  refine Prod.ext (by simp only [abs_of_pos hV]) ?_
  simp only [hval, Option.some.injEq]
  rw [response_marks hJ hN, List.map_map, List.length_map, abs_of_pos hV]
  push_cast
  congr 2
  apply List.map_congr_left
  intro m hm
  simp only [Function.comp_apply]
  have h5 : ((idx q K m : ℕ) : ℂ) = q * m + K := by
    have h6 := (hin m hm).1
    have h7 : ((idx q K m : ℕ) : ℤ) = q * m + K := by unfold idx; omega
    exact_mod_cast congrArg (Int.cast : ℤ → ℂ) h7
  rw [h5]
  congr 2
  ring

private theorem bin_in {n N k : ℕ} (hk : k < n) (hN : n ≤ N) : ∃ k', k' < N ∧ binNumber N k' = binNumber n k := by
  by_cases h : 2 * k < n
  · refine ⟨k, by omega, ?_⟩
    unfold binNumber
    rw [if_pos h, if_pos (by omega)]
  · refine ⟨k + N - n, by omega, ?_⟩
    unfold binNumber
    rw [if_neg h, if_neg (by omega)]
    omega

private theorem bin_inj {N i j : ℕ} (hi : i < N) (hj : j < N) (h : binNumber N i = binNumber N j) : i = j := by
  unfold binNumber at h
  split_ifs at h <;> omega

private theorem delay_twiddle {n k : ℕ} (hn : 0 < n) {dt : ℝ} (hdt : dt ≠ 0) (m : ℤ) :
    Complex.exp (-(2 * Real.pi * ((binNumber n k : ℝ) / (n * dt)) * (m * dt) : ℝ) * Complex.I) = twiddle n (m * k) := by
  rw [twiddle_period n hn (m * k) (m * binNumber n k) (by rw [← mul_sub]; exact Dvd.dvd.mul_left (binNumber_dvd _ _) _)]
  unfold twiddle
  congr 1
  have hc : (n : ℂ) ≠ 0 := by exact_mod_cast hn.ne'
  have hdc : (dt : ℂ) ≠ 0 := by exact_mod_cast hdt
  push_cast
  field_simp

/-- The filter at the frequency of a bin of the data. -/
private theorem node_mem {ms : List ℤ} {V dt dx : ℝ} {q K n : ℕ} (hdx : 0 < dx) (hV : 0 < V) (hdt : 0 < dt) (hn : 0 < n) (hq0 : 0 < q)
    (hq : V * dt = q * dx) (hK : q * n = 2 * K) {k : ℕ} (hk : k < n) :
    ((binNumber n k : ℝ) / (n * dt), (ms.map fun m => twiddle n (m * k)).sum / ms.length) ∈
      (List.range (2 * K)).map fun (k : ℕ) => ((binNumber (2 * K) k : ℝ) * V / ((2 * K : ℕ) * dx),
        ((ms.map fun (m : ℤ) => Complex.exp (-(2 * Real.pi * ((binNumber (2 * K) k : ℝ) * V / ((2 * K : ℕ) * dx)) * (q * m * dx) / V : ℝ) * Complex.I)).sum /
          ms.length)) := by
  have hnN : n ≤ 2 * K := by rw [← hK]; exact Nat.le_mul_of_pos_left n hq0
  obtain ⟨k', hk', hb⟩ := bin_in hk hnN
  refine List.mem_map.2 ⟨k', List.mem_range.2 hk', ?_⟩
  have hnr : (n : ℝ) ≠ 0 := by exact_mod_cast hn.ne'
  have hqr : (q : ℝ) ≠ 0 := by exact_mod_cast hq0.ne'
  have hf : (binNumber n k : ℝ) * V / (((2 * K : ℕ) : ℝ) * dx) = (binNumber n k : ℝ) / (n * dt) := by
    have h1 : (((2 * K : ℕ) : ℝ)) = q * n := by exact_mod_cast hK.symm
    rw [h1, div_eq_div_iff (by positivity) (by positivity)]
    linear_combination ((binNumber n k : ℝ) * n) * hq
  rw [hb, hf]
  congr 2
  congr 1
  apply List.map_congr_left
  intro m _
  rw [← delay_twiddle hn hdt.ne' m]
  congr 2
  push_cast
  have hq' : (V : ℂ) * dt = q * dx := by exact_mod_cast hq
  have hVc : (V : ℂ) ≠ 0 := by exact_mod_cast hV.ne'
  have e : (q : ℂ) * m * dx / V = m * dt := by
    field_simp
    linear_combination (-(m : ℂ)) * hq'
  rw [mul_div_assoc, e]

private theorem freq_nodup {V dx : ℝ} {K : ℕ} (hV : 0 < V) (hdx : 0 < dx) (hK : 0 < K) (g : ℕ → ℂ) :
    (((List.range (2 * K)).map fun (k : ℕ) => ((binNumber (2 * K) k : ℝ) * V / ((2 * K : ℕ) * dx), g k)).map Prod.fst).Nodup := by
  rw [List.map_map]
  refine (List.nodup_map_iff_inj_on List.nodup_range).2 ?_
  intro a ha b hb hab
  simp only [Function.comp_apply] at hab
  have hK' : (((2 * K : ℕ) : ℝ) * dx) ≠ 0 := by positivity
  rw [div_left_inj' hK'] at hab
  have := mul_right_cancel₀ hV.ne' hab
  exact bin_inj (List.mem_range.1 ha) (List.mem_range.1 hb) (by exact_mod_cast this)

/-- C180 (partial: sites that are all at different distances along the motion): the reference series filtered with the CAM
filter of the plant is the mean of the series of its sites, for a repeating pattern moving with the given velocity.  The
extent `2 M` of the plant axis is the way the pattern moves during the record, `V dt n`; its step `dx` divides the way made in
one sampling interval into `q` parts; the sites are on the axis. -/
theorem C180_mean_partial (sites : List (ℝ × ℝ)) (ms : List ℤ) (ref dir : ℝ × ℝ) (V dt dx : ℝ) (q K : ℕ) (M : ℤ) (x : List ℝ)
    (hx : 2 ≤ x.length) (hd : dir ≠ 0) (hV : 0 < V) (hdt : 0 < dt) (hdx : 0 < dx) (hq : V * dt = q * dx)
    (hM : 2 * (M : ℝ) = V * dt * x.length) (hK : q * x.length = 2 * K)
    (h : ReachedAfter sites ms ref dir V dt) (hne : ms ≠ []) (hnd : ms.Nodup) (hin : ∀ m ∈ ms, -(x.length : ℤ) ≤ 2 * m ∧ 2 * m < x.length) :
    ∃ filt : List (ℝ × ℂ),
      getCamfilter (sites.map Prod.fst) (sites.map Prod.snd) V dir ref none "square" dx (2 * M) = .ok (filt.map fun p => (p.1, some p.2)) ∧
      applyFilter dt x filt = .ok (plantMean x ms) := by
  have hn : 0 < x.length := by omega
  have hq0 : 0 < q := by
    rcases Nat.eq_zero_or_pos q with h0 | h0
    · rw [h0, Nat.cast_zero, zero_mul] at hq
      exact absurd hq (mul_pos hV hdt).ne'
    · exact h0
  have hK0 : 0 < K := by
    have := Nat.mul_pos hq0 hn
    omega
  have hM' : 2 * (M : ℝ) = (2 * K : ℕ) * dx := by
    have h1 : (((2 * K : ℕ) : ℝ)) = q * x.length := by exact_mod_cast hK.symm
    rw [hM, h1]
    linear_combination (x.length : ℝ) * hq
  have hin' : ∀ m ∈ ms, -(K : ℤ) ≤ q * m ∧ q * m < K := by
    intro m hm
    obtain ⟨h1, h2⟩ := hin m hm
    have hKz : (q : ℤ) * x.length = 2 * K := by exact_mod_cast hK
    have hqz : (0 : ℤ) < q := by exact_mod_cast hq0
    constructor <;> nlinarith
  refine ⟨(List.range (2 * K)).map fun (k : ℕ) => ((binNumber (2 * K) k : ℝ) * V / ((2 * K : ℕ) * dx),
        ((ms.map fun (m : ℤ) => Complex.exp (-(2 * Real.pi * ((binNumber (2 * K) k : ℝ) * V / ((2 * K : ℕ) * dx)) * (q * m * dx) / V : ℝ) * Complex.I)).sum /
          ms.length)), ?_, ?_⟩
  · rw [cam_of_sites hd hdx hV hK0 hq0 hq hM' h hne hnd hin', List.map_map]
    rfl
  · refine apply_of_nodes hdt.ne' hx (by simp [plantMean]) (freq_nodup hV hdx hK0 _)
      (fun k => (ms.map fun m => twiddle x.length (m * k)).sum / ms.length) ?_ ?_
    · intro k hk
      exact node_mem hdx hV hdt hn hq0 hq hK hk
    · intro k _
      exact dft_mean x hn ms k

/-- A plant of two sites in line with the motion, reached at once and after one sample. -/
example : ReachedAfter [(0, 0), (1, 0)] [0, 1] (0, 0) (1, 0) 1 1 ∧ ([0, 1] : List ℤ).Nodup ∧ ((1, 0) : ℝ × ℝ) ≠ 0 ∧
    (1 : ℝ) * 1 = (1 : ℕ) * 1 ∧ 2 * ((2 : ℤ) : ℝ) = 1 * 1 * (([1, 0, 0, 0] : List ℝ).length : ℝ) ∧
    1 * ([1, 0, 0, 0] : List ℝ).length = 2 * 2 ∧ ∀ m ∈ ([0, 1] : List ℤ), -((([1, 0, 0, 0] : List ℝ).length : ℕ) : ℤ) ≤ 2 * m ∧
      2 * m < (([1, 0, 0, 0] : List ℝ).length : ℕ) := by
  refine ⟨?_, by decide, by simp, by norm_num, by norm_num, by norm_num, by simp⟩
  unfold ReachedAfter
  simp

private theorem mark_twice (w c : ℝ) (xs pl : List ℝ) : markSquare w xs (markSquare w xs pl c) c = markSquare w xs pl c := by
  unfold markSquare
  induction xs generalizing pl with
  | nil => rfl
  | cons x xs ih =>
    cases pl with
    | nil => rfl
    | cons p pl =>
      simp only [List.zipWith_cons_cons, ih]
      congr 1
      split_ifs <;> rfl

/-- C180 is violated if two sites are at the same distance along the motion: of the three sites (0,0), (0,1), (1,0) the first
two, which see the same series, count as one.  The filtered reference is then the mean of two of the three series. -/
theorem C180_violated_abreast : ∃ (sites : List (ℝ × ℝ)) (ms : List ℤ) (x : List ℝ) (filt : List (ℝ × ℂ)) (out : List ℝ),
    x.length = 4 ∧ ReachedAfter sites ms (0, 0) (1, 0) 1 1 ∧ (∀ m ∈ ms, -(x.length : ℤ) ≤ 2 * m ∧ 2 * m < x.length) ∧
    getCamfilter (sites.map Prod.fst) (sites.map Prod.snd) 1 (1, 0) (0, 0) none "square" 1 4 = .ok (filt.map fun p => (p.1, some p.2)) ∧
    applyFilter 1 x filt = .ok out ∧ out ≠ plantMean x ms ∧ out = plantMean x [0, 1] := by
  obtain ⟨filt, h1, h2⟩ := C180_mean_partial [(0, 0), (1, 0)] [0, 1] (0, 0) (1, 0) 1 1 1 1 2 2 [1, 0, 0, 0] (by simp) (by simp)
    one_pos one_pos one_pos (by norm_num) (by norm_num) (by norm_num) (by unfold ReachedAfter; simp) (by simp) (by decide) (by simp)
  refine ⟨[(0, 0), (0, 1), (1, 0)], [0, 0, 1], [1, 0, 0, 0], filt, _, rfl, by unfold ReachedAfter; simp, by simp, ?_, h2, ?_, rfl⟩
  · rw [show (4 : ℝ) = 2 * ((2 : ℤ) : ℝ) by norm_num, ← h1]
    have hm : magnitude (1, 0) ≠ 0 := by simp [magnitude]
    unfold getCamfilter get1dPlant
    simp only [List.map_cons, List.map_nil, computeVectors, List.zip_cons_cons, List.zip_nil_left, projectVectors, unit, if_neg hm,
      Option.map_some]
    have : magnitude (1, 0) = 1 := by simp [magnitude]
    have hsq : ("square" : String).toLower = "square" := by decide +kernel
    have e3 : List.filterMap (fun (x : Option ℝ) => x) [some 0, some 0, some 1] = [0, 0, 1] := rfl
    have e2 : List.filterMap (fun (x : Option ℝ) => x) [some 0, some 1] = [0, 1] := rfl
    simp only [this]
    norm_num [mark_twice, hsq, e3, e2]
    rw [if_neg (by simp), if_neg (by simp)]
  · intro h
    have h3 := congrArg (fun l : List ℝ => l[0]?) h
    simp [plantMean, later, List.range_succ] at h3
    norm_num at h3

/-! ## C181 -/

/-- C181: for sites that are all at different distances along the motion, the transfer function from the reference to the
mean of the plant, measured in one block with a rectangular window, has the value of the CAM filter at every frequency below
half the sampling rate at which the reference has power. -/
theorem C181_measured (sites : List (ℝ × ℝ)) (ms : List ℤ) (ref dir : ℝ × ℝ) (V dt dx : ℝ) (q K : ℕ) (M : ℤ) (x : List ℝ)
    (hx : 2 ≤ x.length) (hd : dir ≠ 0) (hV : 0 < V) (hdt : 0 < dt) (hdx : 0 < dx) (hq : V * dt = q * dx)
    (hM : 2 * (M : ℝ) = V * dt * x.length) (hK : q * x.length = 2 * K)
    (h : ReachedAfter sites ms ref dir V dt) (hne : ms ≠ []) (hnd : ms.Nodup) (hin : ∀ m ∈ ms, -(x.length : ℤ) ≤ 2 * m ∧ 2 * m < x.length)
    (a b : String) (ov : ℝ) (cols : List (String × List Row))
    (htf : averagedTf ⟨dt, 1, ov, fun L => List.replicate L 1, .none⟩ [(a, x)] [(b, plantMean x ms)] = .ok cols) :
    ∃ (filt : List (ℝ × ℂ)) (rows : List Row),
      getCamfilter (sites.map Prod.fst) (sites.map Prod.snd) V dir ref none "square" dx (2 * M) = .ok (filt.map fun p => (p.1, some p.2)) ∧
      cols = [(a ++ "_" ++ b, rows)] ∧ rows.length = x.length / 2 + 1 ∧
      ∀ (k : ℕ) (r : Row), rows[k]? = some r → r.f = k / (x.length * dt) ∧ (2 * k < x.length →
        (r.tf = none ∧ ∑ j ∈ Finset.range x.length, (((x[j]?).getD 0 : ℝ) : ℂ) *
            Complex.exp (-2 * Real.pi * Complex.I * ((j * k : ℤ) : ℂ) / x.length) = 0) ∨
          ∃ z, r.tf = some z ∧ (r.f, z) ∈ filt) := by
  have hn : 0 < x.length := by omega
  have hq0 : 0 < q := by
    rcases Nat.eq_zero_or_pos q with h0 | h0
    · rw [h0, Nat.cast_zero, zero_mul] at hq
      exact absurd hq (mul_pos hV hdt).ne'
    · exact h0
  have hK0 : 0 < K := by
    have := Nat.mul_pos hq0 hn
    omega
  have hM' : 2 * (M : ℝ) = (2 * K : ℕ) * dx := by
    have h1 : (((2 * K : ℕ) : ℝ)) = q * x.length := by exact_mod_cast hK.symm
    rw [hM, h1]
    linear_combination (x.length : ℝ) * hq
  have hin' : ∀ m ∈ ms, -(K : ℤ) ≤ q * m ∧ q * m < K := by
    intro m hm
    obtain ⟨h1, h2⟩ := hin m hm
    have hKz : (q : ℤ) * x.length = 2 * K := by exact_mod_cast hK
    have hqz : (0 : ℤ) < q := by exact_mod_cast hq0
    constructor <;> nlinarith
  obtain ⟨-, -, hov, rfl⟩ := averagedTf_pair _ a b x _ htf
  simp only [Nat.div_one] at hov ⊢
  have hovn : (pyInt ((x.length : ℝ) * ov)).toNat < x.length := by omega
  set ovn := (pyInt ((x.length : ℝ) * ov)).toNat with hovn'
  have hl : (plantMean x ms).length = x.length := by simp [plantMean]
  refine ⟨(List.range (2 * K)).map fun (k : ℕ) => ((binNumber (2 * K) k : ℝ) * V / ((2 * K : ℕ) * dx),
        ((ms.map fun (m : ℤ) => Complex.exp (-(2 * Real.pi * ((binNumber (2 * K) k : ℝ) * V / ((2 * K : ℕ) * dx)) * (q * m * dx) / V : ℝ) * Complex.I)).sum /
          ms.length)), _, ?_, rfl, by simp [pairTf], ?_⟩
  · rw [cam_of_sites hd hdx hV hK0 hq0 hq hM' h hne hnd hin', List.map_map]
    rfl
  intro k r hr
  obtain ⟨hk, rfl⟩ := pairTf_getElem hr
  refine ⟨rfl, ?_⟩
  intro hk2
  have hkn : k < x.length := by omega
  have eX : spectra (List.replicate x.length 1) .none x.length ovn x k = [dftR x k] := by
    unfold spectra
    rw [segStarts_one hovn]
    simp only [List.map_cons, List.map_nil]
    rw [segment_all, spectrum_plain]; rfl
  have eY : spectra (List.replicate x.length 1) .none x.length ovn (plantMean x ms) k =
      (spectra (List.replicate x.length 1) .none x.length ovn x k).map fun v => ((ms.map fun m => twiddle x.length (m * k)).sum / ms.length) * v := by
    rw [eX]
    unfold spectra
    rw [hl, segStarts_one hovn]
    simp only [List.map_cons, List.map_nil]
    have h1 := segment_all (plantMean x ms)
    have h2 := spectrum_plain (plantMean x ms) k
    rw [hl] at h1 h2
    rw [h1, h2]
    have h3 := dft_mean x hn ms k
    unfold dftR at h3
    rw [hl] at h3
    rw [h3]; rfl
  simp only
  rw [eY]
  by_cases hp : psd (psdScale (List.replicate x.length 1) dt x.length k) (spectra (List.replicate x.length 1) .none x.length ovn x k) = 0
  · left
    refine ⟨by unfold tfBin; rw [if_pos hp], ?_⟩
    rw [eX] at hp
    have hc : psdScale (List.replicate x.length 1) dt x.length k ≠ 0 := by
      unfold psdScale
      have : ((List.replicate x.length (1 : ℝ)).map fun (v : ℝ) => v ^ 2).sum = (x.length : ℝ) := by simp
      rw [this]
      have : (0 : ℝ) < x.length := by exact_mod_cast hn
      refine mul_ne_zero (by split_ifs <;> norm_num) (by positivity)
    unfold psd at hp
    simp only [List.map_cons, List.map_nil, List.sum_cons, List.sum_nil, add_zero, List.length_cons, List.length_nil, zero_add,
      Nat.cast_one, div_one] at hp
    have := Complex.normSq_eq_zero.1 ((mul_eq_zero.1 hp).resolve_left hc)
    exact this
  · right
    refine ⟨_, tfBin_multiple _ _ _ hp, ?_⟩
    have := node_mem (ms := ms) hdx hV hdt hn hq0 hq hK hkn
    have hb : binNumber x.length k = k := by unfold binNumber; rw [if_pos hk2]
    rw [hb] at this
    exact this

/-- The transfer function of the example plant exists. -/
example : ∃ cols, averagedTf ⟨1, 1, 0.5, fun L => List.replicate L 1, .none⟩ [("a", [1, 0, 0, 0])] [("b", plantMean [1, 0, 0, 0] [0, 1])] = .ok cols :=
  Props.Tf.C103_succeeds _ 4 _ _ (by simp) (by simp [plantMean]) (by simp) (by norm_num) (by norm_num) (by norm_num) (by norm_num)

end SST.Props.PlantMean
