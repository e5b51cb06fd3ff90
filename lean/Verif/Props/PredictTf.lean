import Verif.Spec.PredictTf
import Verif.Props.PredictData
import Verif.Props.Robust
import Verif.Props.CmvTf
import Mathlib.Data.String.Basic

/-!
# C234: predicted positions from the records themselves

C200 and C202 start from the delays; here the delays are those `compute_delays_tf` finds in the records of two patterns.
-/

namespace SST.Props.PredictTf
open SST SST.Field SST.Spec SST.Spatial SST.Tf SST.Props.PredictData SST.Props.Robust

theorem fieldDelays_exists {ham : ℕ → List ℝ} {dt : ℝ} {df : List (String × List ℝ)} (hnd : (df.map Prod.fst).Nodup) {ref : String} {x : List ℝ}
    (hx : (ref, x) ∈ df) {navgs : ℕ} {cohLim freqLim : Option ℝ} {method : String} {v : String × List ℝ} {o : List (Option ℝ × List Bool × XR)}
    (h : computeDelaysTf ⟨dt, navgs, 0.5, ham, .none⟩ [(ref, x)] [v] cohLim freqLim method = .ok o) :
    ∃ res, fieldComputeDelays ham dt df ref navgs cohLim freqLim method = .ok res := by
  unfold fieldComputeDelays
  have hf : df.find? (fun p => decide (p.1 = ref)) = some (ref, x) := by
    cases hf : df.find? fun p => decide (p.1 = ref) with
    | none =>
      have := List.find?_eq_none.1 hf _ hx
      simp at this
    | some p =>
      have h1 : p.1 = ref := by simpa using List.find?_some hf
      have h2 := List.mem_of_find?_eq_some hf
      congr 1
      exact List.inj_on_of_nodup_map hnd h2 hx h1
  rw [hf]
  simp only
  unfold computeDelaysTf at h ⊢
  simp only [averagedTf_single, List.length_cons, List.length_nil, zero_add, lt_irrefl, false_and, if_false] at h ⊢
  by_cases h1 : navgs = 0
  · simp only [h1, if_true] at h; cases h
  simp only [if_neg h1] at h ⊢
  by_cases h2 : x.length / navgs = 0 ∨ ((x.length / navgs : ℕ) : ℤ) ≤ pyInt ((x.length / navgs : ℕ) * 0.5)
  · simp only [if_pos h2] at h; cases h
  simp only [if_neg h2] at h ⊢
  by_cases h4 : method ≠ "fit" ∧ method ≠ "multi"
  · rw [if_neg (by simp), if_pos h4] at h; cases h
  have h3 : (List.map Prod.fst (List.map (fun q : String × List ℝ => (ref ++ "_" ++ q.1,
        Tf.pairTf ⟨dt, navgs, 0.5, ham, .none⟩ (x.length / navgs) (pyInt ((x.length / navgs : ℕ) * 0.5)).toNat x q.2)) df)).Nodup := by
    rw [List.map_map]
    have : (Prod.fst ∘ fun q : String × List ℝ => (ref ++ "_" ++ q.1,
        Tf.pairTf ⟨dt, navgs, 0.5, ham, .none⟩ (x.length / navgs) (pyInt ((x.length / navgs : ℕ) * 0.5)).toNat x q.2)) =
        (fun s => ref ++ "_" ++ s) ∘ Prod.fst := rfl
    rw [this, ← List.map_map]
    refine hnd.map fun a b hab => ?_
    have := congrArg String.toList hab
    simp only [String.toList_append, List.append_cancel_left_eq] at this
    exact String.toList_inj.1 this
  rw [if_neg (fun h => h.2 h3)]
  rw [if_neg (by simp)] at h
  simp only [if_neg h4] at h ⊢
  cases freqLim with
  | none => cases h
  | some fl => exact ⟨_, rfl⟩

/-- The delays found between the reference and every column of the data set are those of a motion `V` over the places `P`, up to `ε`. -/
def DelaysNear (ham : ℕ → List ℝ) (navgs : ℕ) (cohLim : Option ℝ) (fl : ℝ) (method : String) (V : Vec) (P : String → Vec) (ref : String) (d : DataSet) (ε : ℝ) : Prop :=
  ∀ x, (ref, x) ∈ d.cols → ∀ c ∈ d.cols, ∃ dl mask mc,
    computeDelaysTf ⟨d.dt, navgs, 0.5, ham, .none⟩ [(ref, x)] [c] cohLim (some fl) method = .ok [(some dl, mask, mc)] ∧
      |dl - planeDelay (P c.1) (P ref) V| ≤ ε

theorem measured_of {ham : ℕ → List ℝ} {pts : List (String × Vec)} (hnd : (pts.map Prod.fst).Nodup) {navgs : ℕ} {fl ε : ℝ} {V : Vec}
    {P : String → Vec} {ref : String} {d : DataSet} (hcols : d.cols.map Prod.fst = pts.map Prod.fst) {cohLim : Option ℝ} {method : String}
    (hp : DelaysNear ham navgs cohLim fl method V P ref d ε) (href : ref ∈ pts.map Prod.fst) :
    ∃ res τ, fieldComputeDelays ham d.dt d.cols ref navgs cohLim (some fl) method = .ok res ∧
      MeasuredCase (pts.map Prod.fst) V τ ⟨V, res.1, res.2.map finVal⟩ ∧
      ∀ l ∈ pts.map Prod.fst, |τ l - planeDelay (P l) (P ref) V| ≤ ε := by
  have hndc : (d.cols.map Prod.fst).Nodup := hcols ▸ hnd
  have href' : ref ∈ d.cols.map Prod.fst := hcols ▸ href
  obtain ⟨⟨r0, x⟩, hx, hr0⟩ := List.mem_map.1 href'
  simp only at hr0
  subst hr0
  have hone := hp x hx
  obtain ⟨dl0, mask0, mc0, h0, -⟩ := hone _ hx
  obtain ⟨res, hres⟩ := fieldDelays_exists hndc hx h0
  obtain ⟨x', hx', hl1, hl2, hget⟩ := fieldDelays_get hres
  have hxx : x' = x := by
    have := List.inj_on_of_nodup_map hndc hx' hx rfl
    exact (Prod.mk.inj this).2
  subst hxx
  have hlen : d.cols.length = pts.length := by simpa using congrArg List.length hcols
  classical
  have hex : ∀ l, ∃ t : ℝ, l ∈ pts.map Prod.fst → |t - planeDelay (P l) (P r0) V| ≤ ε ∧
      ∀ (i : ℕ) (c : String × List ℝ), d.cols[i]? = some c → c.1 = l → res.1[i]? = some (some t) := by
    intro l
    by_cases hl : l ∈ pts.map Prod.fst
    · rw [← hcols] at hl
      obtain ⟨c, hc, rfl⟩ := List.mem_map.1 hl
      obtain ⟨dl, mask, mc, h1, h2⟩ := hone c hc
      refine ⟨dl, fun _ => ⟨h2, fun i c' hi hc' => ?_⟩⟩
      have : c' = c := List.inj_on_of_nodup_map hndc (List.mem_of_getElem? hi) hc hc'
      subst this
      obtain ⟨dl', mask', ch', g1, g2, -⟩ := hget i c' hi
      rw [h1] at g1
      simp only [Except.ok.injEq, List.cons.injEq, Prod.mk.injEq, and_true] at g1
      rw [g2, ← g1.1]
    · exact ⟨0, fun h => absurd h hl⟩
  choose τ hτ using hex
  refine ⟨res, τ, hres, ⟨rfl, ?_, ?_⟩, fun l hl => (hτ l hl).1⟩
  · simp only
    apply List.ext_getElem?
    intro i
    by_cases hi : i < d.cols.length
    · have hc : d.cols[i]? = some d.cols[i] := List.getElem?_eq_getElem hi
      have hm' : (d.cols[i]).1 ∈ pts.map Prod.fst := hcols ▸ List.mem_map.2 ⟨_, List.getElem_mem hi, rfl⟩
      rw [(hτ _ hm').2 i _ hc rfl, List.getElem?_map, ← hcols, List.getElem?_map, hc]
      rfl
    · rw [List.getElem?_eq_none (by omega), List.getElem?_eq_none (by simp; omega)]
  · simp only [List.length_map]
    omega

/-- The delays of a data set in which a pattern passes. -/
theorem pattern_near (ham : ℕ → List ℝ) {navgs n L S K : ℕ} {fl ρ : ℝ} {V : Vec}
    {P : String → Vec} {q : ℤ → ℝ} {m : String → ℤ} {ref : String} {d : DataSet} (hdt : 0 < d.dt) (hρ0 : 0 ≤ ρ)
    (hp : PassingPattern ham navgs n L S K fl ρ V P q m ref d) {cohLim : Option ℝ}
    (hcl : ∀ l, cohLim = some l → l < ((1 - ρ) / (1 + ρ)) ^ 2) {method : String} (hm : method = "multi" ∨ method = "fit") :
    DelaysNear ham navgs cohLim fl method V P ref d (edgeError method ρ (L * d.dt) K) := by
  have hh : L - L / 2 = L - ⌊(L : ℝ) * 0.5⌋₊ := by
    congr 1
    symm
    have h2 : (L : ℝ) * 0.5 = (L : ℝ) / ((2 : ℕ) : ℝ) := by push_cast; ring
    rw [h2, Nat.floor_div_eq_div]
  intro x hx c hc
  have hxe : x = recordOf q n (m ref) := hp.recorded _ hx
  obtain ⟨⟨e1, e2, e3, h1, h2⟩, f1, f2, f3, h3, h4⟩ := C221_frozen ref c.1 (fun t => q (t - m ref)) n navgs L (L - L / 2) S K (m c.1 - m ref) d.dt 0.5 fl ρ ham .none
    cohLim hdt (by norm_num) hp.segments.1 hh hp.segments.2 hρ0 (hp.short c hc) (hp.edges c hc) hcl hp.band.1 hp.band.2.1 hp.band.2.2.1 hp.band.2.2.2
  have k1 : recordOf (fun t => q (t - m ref)) n 0 = x := by
    rw [hxe, CmvTf.recordOf_shift q n (m ref) (m ref), sub_self]
  have k2 : recordOf (fun t => q (t - m ref)) n (m c.1 - m ref) = c.2 := by
    rw [hp.recorded c hc, CmvTf.recordOf_shift q n (m ref) (m c.1)]
  have k3 : ((c.1, c.2) : String × List ℝ) = c := rfl
  rw [k1, k2, k3] at h1 h3
  rw [hp.arrival c hc] at h2 h4
  rcases hm with rfl | rfl
  · exact ⟨e1, e2, e3, h1, by unfold edgeError; rw [if_neg (by decide +kernel)]; exact h2⟩
  · exact ⟨f1, f2, f3, h3, by unfold edgeError; rw [if_pos rfl]; exact h4⟩

theorem measured (ham : ℕ → List ℝ) {pts : List (String × Vec)} (hnd : (pts.map Prod.fst).Nodup) {navgs n L S K : ℕ} {fl ρ : ℝ} {V : Vec}
    {P : String → Vec} {q : ℤ → ℝ} {m : String → ℤ} {ref : String} {d : DataSet} (hcols : d.cols.map Prod.fst = pts.map Prod.fst) (hdt : 0 < d.dt) (hρ0 : 0 ≤ ρ)
    (hp : PassingPattern ham navgs n L S K fl ρ V P q m ref d) (href : ref ∈ pts.map Prod.fst) {cohLim : Option ℝ}
    (hcl : ∀ l, cohLim = some l → l < ((1 - ρ) / (1 + ρ)) ^ 2) {method : String} (hm : method = "multi" ∨ method = "fit") :
    ∃ res τ, fieldComputeDelays ham d.dt d.cols ref navgs cohLim (some fl) method = .ok res ∧
      MeasuredCase (pts.map Prod.fst) V τ ⟨V, res.1, res.2.map finVal⟩ ∧
      ∀ l ∈ pts.map Prod.fst, |τ l - planeDelay (P l) (P ref) V| ≤ edgeError method ρ (L * d.dt) K :=
  measured_of hnd hcols (pattern_near ham hdt hρ0 hp hcl hm) href

/-- From delays to the predicted place. -/
theorem predict_of (x : Cmv.Ext) (nanD : List (Option ℝ) → List (Option ℝ) → Option ℝ) {sort : SortValues String} (hs : IsSortValues sort) (ham : ℕ → List ℝ)
    (d1 d2 : DataSet) (pts : List (String × Vec)) (hnd : (pts.map Prod.fst).Nodup) (hc1 : d1.cols.map Prod.fst = pts.map Prod.fst)
    (hc2 : d2.cols.map Prod.fst = pts.map Prod.fst) (ref : String) (href : ref ∈ pts.map Prod.fst) (P : String → Vec)
    (navgs : ℕ) (fl ε1 ε2 : ℝ) (hε1 : 0 ≤ ε1) (hε2 : 0 ≤ ε2) (V1 V2 : Vec) (hX : V1.1 * V2.2 - V1.2 * V2.1 ≠ 0) (cohLim : Option ℝ) (method : String)
    (h1 : DelaysNear ham navgs cohLim fl method V1 P ref d1 ε1) (h2 : DelaysNear ham navgs cohLim fl method V2 P ref d2 ε2)
    (mode : String) (hmode : mode ∈ ["coherence", "preavg", "global_coherence", "distance", "all"]) (n : ℤ) :
    ∃ pos s1 s2, predictData x nanD sort ham [d1, d2] pts false ref (some [V1, V2]) mode n navgs cohLim (some fl) method = .ok (pos, s1, s2) ∧
      ((∀ l ∈ s1.map Prod.fst, P l = posOf pts l) → (∀ l ∈ s2.map Prod.fst, P l = posOf pts l) →
        pos = (.nan, .nan) ∨ ∃ y : Vec, pos = (.fin y.1, .fin y.2) ∧
          |V1.1 * V2.2 - V1.2 * V2.1| * pdist y (P ref) ≤ (ε1 * magnitude V1 + ε2 * magnitude V2) * (magnitude V1 * magnitude V2)) := by
  obtain ⟨r1, τ1, e1, c1, b1⟩ := measured_of hnd hc1 h1 href
  obtain ⟨r2, τ2, e2, c2, b2⟩ := measured_of hnd hc2 h2 href
  obtain ⟨pos, s1, s2, hr, -, -, hsub1, hsub2, -⟩ := C200_shift hs pts hnd P ref href mode hmode n V1 V2 hX τ1 τ2 _ _ c1 c2
  obtain ⟨pos', s1', s2', hr', hb⟩ := C200_bound hs pts hnd P ref href mode hmode n V1 V2 hX τ1 τ2 _ _ c1 c2 ε1 ε2 hε1 hε2
  rw [hr] at hr'
  obtain ⟨rfl, rfl, rfl⟩ : pos = pos' ∧ s1 = s1' ∧ s2 = s2' := by simpa using hr'
  exact ⟨pos, s1, s2, by rw [predictData_ok e1 e2, hr], fun g1 g2 => hb (fun l hl => ⟨g1 l hl, b1 l (hsub1 l hl)⟩) fun l hl => ⟨g2 l hl, b2 l (hsub2 l hl)⟩⟩

theorem edgeError_nonneg {method : String} {ρ T : ℝ} {K : ℕ} (h : 0 ≤ ρ) (h' : 0 ≤ T) : 0 ≤ edgeError method ρ T K := by
  unfold edgeError
  split_ifs <;> positivity

/-- C234: two data sets hold records of patterns that pass the true places `P` with the velocities `V1` and `V2`.  `compute_predicted_position` with these cloud
vectors returns NaN or, if the sensors used are where the table says, a place within `(ε1 |V1| + ε2 |V2|) / sin` of the true place of the reference, where
`sin` is the sine of the angle between the motions and `ε` the largest error of a delay that the edges of the windows cause. -/
theorem C234_bound (x : Cmv.Ext) (nanD : List (Option ℝ) → List (Option ℝ) → Option ℝ) {sort : SortValues String} (hs : IsSortValues sort) (ham : ℕ → List ℝ)
    (d1 d2 : DataSet) (pts : List (String × Vec)) (hnd : (pts.map Prod.fst).Nodup) (hc1 : d1.cols.map Prod.fst = pts.map Prod.fst)
    (hc2 : d2.cols.map Prod.fst = pts.map Prod.fst) (hdt1 : 0 < d1.dt) (hdt2 : 0 < d2.dt) (ref : String) (href : ref ∈ pts.map Prod.fst) (P : String → Vec)
    (navgs n1 n2 L1 L2 S1 S2 K1 K2 : ℕ) (fl ρ1 ρ2 : ℝ) (hρ1 : 0 ≤ ρ1) (hρ2 : 0 ≤ ρ2) (V1 V2 : Vec) (hX : V1.1 * V2.2 - V1.2 * V2.1 ≠ 0) (q1 q2 : ℤ → ℝ)
    (m1 m2 : String → ℤ) (h1 : PassingPattern ham navgs n1 L1 S1 K1 fl ρ1 V1 P q1 m1 ref d1) (h2 : PassingPattern ham navgs n2 L2 S2 K2 fl ρ2 V2 P q2 m2 ref d2)
    (cohLim : Option ℝ) (hcl : ∀ l, cohLim = some l → l < ((1 - ρ1) / (1 + ρ1)) ^ 2 ∧ l < ((1 - ρ2) / (1 + ρ2)) ^ 2) (method : String)
    (hm : method = "multi" ∨ method = "fit") (mode : String) (hmode : mode ∈ ["coherence", "preavg", "global_coherence", "distance", "all"]) (n : ℤ) :
    ∃ pos s1 s2, predictData x nanD sort ham [d1, d2] pts false ref (some [V1, V2]) mode n navgs cohLim (some fl) method = .ok (pos, s1, s2) ∧
      ((∀ l ∈ s1.map Prod.fst, P l = posOf pts l) → (∀ l ∈ s2.map Prod.fst, P l = posOf pts l) →
        pos = (.nan, .nan) ∨ ∃ y : Vec, pos = (.fin y.1, .fin y.2) ∧
          |V1.1 * V2.2 - V1.2 * V2.1| * pdist y (P ref) ≤ (edgeError method ρ1 (L1 * d1.dt) K1 * magnitude V1 +
            edgeError method ρ2 (L2 * d2.dt) K2 * magnitude V2) * (magnitude V1 * magnitude V2)) := by
  exact predict_of x nanD hs ham d1 d2 pts hnd hc1 hc2 ref href P navgs fl _ _ (edgeError_nonneg hρ1 (by positivity)) (edgeError_nonneg hρ2 (by positivity)) V1 V2 hX cohLim method
    (pattern_near ham hdt1 hρ1 h1 (fun l hl => (hcl l hl).1) hm) (pattern_near ham hdt2 hρ2 h2 (fun l hl => (hcl l hl).2) hm) mode hmode n

/-- C234: if no window cuts the patterns (`ρ = 0`), the prediction is exactly the true place of the reference, or NaN in the case that the place in the table
differs from it only perpendicularly to one of the motions (or not at all), or no sensor is selected. -/
theorem C234_exact (x : Cmv.Ext) (nanD : List (Option ℝ) → List (Option ℝ) → Option ℝ) {sort : SortValues String} (hs : IsSortValues sort) (ham : ℕ → List ℝ)
    (d1 d2 : DataSet) (pts : List (String × Vec)) (hnd : (pts.map Prod.fst).Nodup) (hc1 : d1.cols.map Prod.fst = pts.map Prod.fst)
    (hc2 : d2.cols.map Prod.fst = pts.map Prod.fst) (hdt1 : 0 < d1.dt) (hdt2 : 0 < d2.dt) (ref : String) (href : ref ∈ pts.map Prod.fst) (P : String → Vec)
    (navgs n1 n2 L1 L2 S1 S2 K1 K2 : ℕ) (fl : ℝ) (V1 V2 : Vec) (hX : V1.1 * V2.2 - V1.2 * V2.1 ≠ 0) (q1 q2 : ℤ → ℝ)
    (m1 m2 : String → ℤ) (h1 : PassingPattern ham navgs n1 L1 S1 K1 fl 0 V1 P q1 m1 ref d1) (h2 : PassingPattern ham navgs n2 L2 S2 K2 fl 0 V2 P q2 m2 ref d2)
    (cohLim : Option ℝ) (hcl : ∀ l, cohLim = some l → l < 1) (method : String)
    (hm : method = "multi" ∨ method = "fit") (mode : String) (hmode : mode ∈ ["coherence", "preavg", "global_coherence", "distance", "all"]) (n : ℤ) :
    ∃ pos s1 s2, predictData x nanD sort ham [d1, d2] pts false ref (some [V1, V2]) mode n navgs cohLim (some fl) method = .ok (pos, s1, s2) ∧
      ((∀ l ∈ s1.map Prod.fst, P l = posOf pts l) → (∀ l ∈ s2.map Prod.fst, P l = posOf pts l) →
        (s1 ≠ [] ∧ s2 ≠ [] ∧ along (P ref - posOf pts ref) V1 ≠ 0 ∧ along (P ref - posOf pts ref) V2 ≠ 0 → pos = (.fin (P ref).1, .fin (P ref).2)) ∧
        (¬ (s1 ≠ [] ∧ s2 ≠ [] ∧ along (P ref - posOf pts ref) V1 ≠ 0 ∧ along (P ref - posOf pts ref) V2 ≠ 0) → pos = (.nan, .nan))) := by
  have hcl' : ∀ l, cohLim = some l → l < ((1 - (0 : ℝ)) / (1 + 0)) ^ 2 := fun l hl => by norm_num; exact hcl l hl
  obtain ⟨r1, τ1, e1, c1, b1⟩ := measured ham hnd hc1 hdt1 le_rfl h1 href hcl' hm
  obtain ⟨r2, τ2, e2, c2, b2⟩ := measured ham hnd hc2 hdt2 le_rfl h2 href hcl' hm
  have hz : ∀ (T : ℝ) (K : ℕ), edgeError method 0 T K = 0 := by
    intro T K
    unfold edgeError
    split_ifs <;> simp
  rw [hz] at b1 b2
  obtain ⟨pos, s1, s2, hr, -, -, hsub1, hsub2, hall⟩ := C200_shift hs pts hnd P ref href mode hmode n V1 V2 hX τ1 τ2 _ _ c1 c2
  refine ⟨pos, s1, s2, by rw [predictData_ok e1 e2, hr], fun g1 g2 => ?_⟩
  have zero : ∀ S : List String, (∀ l ∈ S, P l = posOf pts l) → meanDisp P (posOf pts) S = 0 := by
    intro S hS
    have k1 : (S.map fun l => (P l).1 - (posOf pts l).1) = S.map fun _ => (0 : ℝ) := List.map_congr_left fun l hl => by rw [hS l hl, sub_self]
    have k2 : (S.map fun l => (P l).2 - (posOf pts l).2) = S.map fun _ => (0 : ℝ) := List.map_congr_left fun l hl => by rw [hS l hl, sub_self]
    unfold meanDisp
    rw [k1, k2]
    simp
  have noerr : ∀ (S : List String) (τ : String → ℝ) (V : Vec), (∀ l ∈ S, |τ l - planeDelay (P l) (P ref) V| ≤ 0) →
      meanOver S (fun l => τ l - planeDelay (P l) (P ref) V) = 0 := by
    intro S τ V h
    have := meanOver_abs_le S _ 0 le_rfl h
    exact abs_eq_zero.1 (le_antisymm this (abs_nonneg _))
  simp only at hall
  rw [zero _ g1, zero _ g2, noerr _ τ1 V1 fun l hl => b1 l (hsub1 l hl), noerr _ τ2 V2 fun l hl => b2 l (hsub2 l hl)] at hall
  simp only [sub_zero, mul_zero] at hall
  obtain ⟨k1, k2⟩ := hall
  constructor
  · rintro ⟨a1, a2, a3, a4⟩
    obtain ⟨y, hy, u1, u2⟩ := k1 a1 a2 a3 a4
    simp only [along, Prod.fst_zero, Prod.snd_zero, zero_mul, add_zero, neg_zero, Prod.fst_sub, Prod.snd_sub] at u1 u2
    have v1 : (V1.1 * V2.2 - V1.2 * V2.1) * (y.1 - (P ref).1) = 0 := by linear_combination V2.2 * u1 - V1.2 * u2
    have v2 : (V1.1 * V2.2 - V1.2 * V2.1) * (y.2 - (P ref).2) = 0 := by linear_combination V1.1 * u2 - V2.1 * u1
    have w1 : y.1 = (P ref).1 := sub_eq_zero.1 ((mul_eq_zero.1 v1).resolve_left hX)
    have w2 : y.2 = (P ref).2 := sub_eq_zero.1 ((mul_eq_zero.1 v2).resolve_left hX)
    rw [hy, w1, w2]
  · intro h
    apply k2
    by_contra hne
    push Not at hne
    exact h hne

/-- From delays to the reassignment of sensors. -/
theorem reassign_of (lsa : LSA) (hl : IsLSA lsa) (nan : ℝ) {sort : SortValues String} (hs : IsSortValues sort) (n : ℤ) (ham : ℕ → List ℝ) (d1 d2 : DataSet)
    (data : String → CloudCase × CloudCase) (refs : List String) (f : Frame String String ℝ) (hn : f.index.Nodup) (hcols : f.cols = ["E", "N"]) (hrn : refs.Nodup)
    (truth : List (String × String)) (P : String → Vec) (hmix : MixedUp (coords "E" "N" f) refs truth P)
    (hc1 : d1.cols.map Prod.fst = f.index) (hc2 : d2.cols.map Prod.fst = f.index)
    (navgs : ℕ) (fl ε1 ε2 : ℝ) (hε1 : 0 ≤ ε1) (hε2 : 0 ≤ ε2) (V1 V2 : Vec) (hX : V1.1 * V2.2 - V1.2 * V2.1 ≠ 0)
    (cohLim : Option ℝ) (method : String) (h1 : ∀ ref ∈ refs, DelaysNear ham navgs cohLim fl method V1 P ref d1 ε1)
    (h2 : ∀ ref ∈ refs, DelaysNear ham navgs cohLim fl method V2 P ref d2 ε2)
    (hdata : ∀ ref ∈ refs, FromDataSets ham navgs cohLim (some fl) method d1 d2 V1 V2 ref (data ref))
    (hfar : ∀ k ∈ refs, ∀ l ∈ refs, k ≠ l → 2 * ((ε1 * magnitude V1 + ε2 * magnitude V2) * (magnitude V1 * magnitude V2)) <
      |V1.1 * V2.2 - V1.2 * V2.1| * pdist (posOf (coords "E" "N" f) k) (posOf (coords "E" "N" f) l))
    (hobl : ∀ p ∈ truth, p.1 ≠ p.2 → normSq V1 * ε1 < |along (P p.1 - posOf (coords "E" "N" f) p.1) V1| ∧
      normSq V2 * ε2 < |along (P p.1 - posOf (coords "E" "N" f) p.1) V2|) (k : ℕ) :
    ∃ r f', reassign lsa nan sort "all" n data refs f k = .ok r ∧ r.Perm truth ∧
      remapPositions nan f r none = .ok f' ∧ f'.index = f.index ∧ ∀ l ∈ f.index, posOf (coords "E" "N" f') l = P l := by
  have hix : (coords "E" "N" f).map Prod.fst = f.index := by
    unfold coords Frame.index
    rw [List.map_map]
    rfl
  have key : ∀ ref ∈ refs, ∃ τ1 τ2 : String → ℝ, MeasuredCase f.index V1 τ1 (data ref).1 ∧ MeasuredCase f.index V2 τ2 (data ref).2 ∧
      ∀ k ∈ f.index, |τ1 k - planeDelay (P k) (P ref) V1| ≤ ε1 ∧
        |τ2 k - planeDelay (P k) (P ref) V2| ≤ ε2 := by
    intro ref hr
    have href := hmix.known ref hr
    obtain ⟨r1, τ1, e1, c1, b1⟩ := measured_of (hix ▸ hn) (hc1.trans hix.symm) (h1 ref hr) href
    obtain ⟨r2, τ2, e2, c2, b2⟩ := measured_of (hix ▸ hn) (hc2.trans hix.symm) (h2 ref hr) href
    obtain ⟨r1', r2', e1', e2', hd⟩ := hdata ref hr
    rw [e1] at e1'
    rw [e2] at e2'
    cases e1'
    cases e2'
    rw [hix] at b1 b2 c1 c2
    rw [hd]
    exact ⟨τ1, τ2, c1, c2, fun k hk => ⟨b1 k hk, b2 k hk⟩⟩
  have hex : ∀ ref, ∃ τ : (String → ℝ) × (String → ℝ), ref ∈ refs → MeasuredCase f.index V1 τ.1 (data ref).1 ∧ MeasuredCase f.index V2 τ.2 (data ref).2 ∧
      ∀ k ∈ f.index, |τ.1 k - planeDelay (P k) (P ref) V1| ≤ ε1 ∧
        |τ.2 k - planeDelay (P k) (P ref) V2| ≤ ε2 := by
    intro ref
    by_cases hr : ref ∈ refs
    · obtain ⟨τ1, τ2, h⟩ := key ref hr
      exact ⟨(τ1, τ2), fun _ => h⟩
    · exact ⟨(fun _ => 0, fun _ => 0), fun h => absurd h hr⟩
  choose τ hτ using hex
  exact C202_noise lsa hl nan hs n data refs f hn hcols hrn truth P hmix V1 V2 hX (fun l => (τ l).1) (fun l => (τ l).2) ε1 ε2 hε1
    hε2 (fun l hl' => ⟨(hτ l hl').1, (hτ l hl').2.1⟩) (fun l hl' k hk => (hτ l hl').2.2 k hk) hfar hobl k

/-- C234: sensors that are mixed up are found from the records.  The procedure of demos/field_reassignment_demo.py (mode 'all') with the delays found in
the two data sets returns the true assignment after the first and every further round, and remapping with it puts every sensor at its true place, if
places are more than twice the error of a prediction apart and every misplaced sensor is displaced along both motions by more than the error of a delay. -/
theorem C234_reassigned (lsa : LSA) (hl : IsLSA lsa) (nan : ℝ) {sort : SortValues String} (hs : IsSortValues sort) (n : ℤ) (ham : ℕ → List ℝ) (d1 d2 : DataSet)
    (data : String → CloudCase × CloudCase) (refs : List String) (f : Frame String String ℝ) (hn : f.index.Nodup) (hcols : f.cols = ["E", "N"]) (hrn : refs.Nodup)
    (truth : List (String × String)) (P : String → Vec) (hmix : MixedUp (coords "E" "N" f) refs truth P)
    (hc1 : d1.cols.map Prod.fst = f.index) (hc2 : d2.cols.map Prod.fst = f.index) (hdt1 : 0 < d1.dt) (hdt2 : 0 < d2.dt)
    (navgs n1 n2 L1 L2 S1 S2 K1 K2 : ℕ) (fl ρ1 ρ2 : ℝ) (hρ1 : 0 ≤ ρ1) (hρ2 : 0 ≤ ρ2) (V1 V2 : Vec) (hX : V1.1 * V2.2 - V1.2 * V2.1 ≠ 0) (q1 q2 : ℤ → ℝ)
    (m1 m2 : String → ℤ) (h1 : ∀ ref ∈ refs, PassingPattern ham navgs n1 L1 S1 K1 fl ρ1 V1 P q1 m1 ref d1)
    (h2 : ∀ ref ∈ refs, PassingPattern ham navgs n2 L2 S2 K2 fl ρ2 V2 P q2 m2 ref d2)
    (cohLim : Option ℝ) (hcl : ∀ l, cohLim = some l → l < ((1 - ρ1) / (1 + ρ1)) ^ 2 ∧ l < ((1 - ρ2) / (1 + ρ2)) ^ 2) (method : String)
    (hm : method = "multi" ∨ method = "fit")
    (hdata : ∀ ref ∈ refs, FromDataSets ham navgs cohLim (some fl) method d1 d2 V1 V2 ref (data ref))
    (hfar : ∀ k ∈ refs, ∀ l ∈ refs, k ≠ l → 2 * ((edgeError method ρ1 (L1 * d1.dt) K1 * magnitude V1 +
      edgeError method ρ2 (L2 * d2.dt) K2 * magnitude V2) * (magnitude V1 * magnitude V2)) <
      |V1.1 * V2.2 - V1.2 * V2.1| * pdist (posOf (coords "E" "N" f) k) (posOf (coords "E" "N" f) l))
    (hobl : ∀ p ∈ truth, p.1 ≠ p.2 → normSq V1 * edgeError method ρ1 (L1 * d1.dt) K1 < |along (P p.1 - posOf (coords "E" "N" f) p.1) V1| ∧
      normSq V2 * edgeError method ρ2 (L2 * d2.dt) K2 < |along (P p.1 - posOf (coords "E" "N" f) p.1) V2|) (k : ℕ) :
    ∃ r f', reassign lsa nan sort "all" n data refs f k = .ok r ∧ r.Perm truth ∧
      remapPositions nan f r none = .ok f' ∧ f'.index = f.index ∧ ∀ l ∈ f.index, posOf (coords "E" "N" f') l = P l := by
  exact reassign_of lsa hl nan hs n ham d1 d2 data refs f hn hcols hrn truth P hmix hc1 hc2 navgs fl _ _ (edgeError_nonneg hρ1 (by positivity)) (edgeError_nonneg hρ2 (by positivity))
    V1 V2 hX cohLim method (fun ref hr => pattern_near ham hdt1 hρ1 (h1 ref hr) (fun l hl => (hcl l hl).1) hm)
    (fun ref hr => pattern_near ham hdt2 hρ2 (h2 ref hr) (fun l hl => (hcl l hl).2) hm) hdata hfar hobl k

/-! ## A concrete case -/

/-- True places of three sensors. -/
def truePlace (l : String) : Vec := if l = "b" then (10, 0) else if l = "c" then (0, 10) else (0, 0)

/-- The table has the sensors b and c exchanged. -/
noncomputable def wrongTable : Frame String String ℝ :=
  ⟨["E", "N"], [("a", fun _ => 0), ("b", fun k => if k = "N" then 10 else 0), ("c", fun k => if k = "E" then 10 else 0)]⟩

/-- Records of the pattern when the sensor `late` sees it one sample of ten seconds after the others. -/
noncomputable def passing (late : String) : DataSet :=
  ⟨10, ["a", "b", "c"].map fun l => (l, recordOf CmvTf.upDown 30 (if l = late then 1 else 0))⟩

theorem passing_mem {late : String} {c : String × List ℝ} (hc : c ∈ (passing late).cols) :
    (c.1 = "a" ∨ c.1 = "b" ∨ c.1 = "c") ∧ c.2 = recordOf CmvTf.upDown 30 (if c.1 = late then 1 else 0) := by
  simp only [passing, List.map_cons, List.map_nil, List.mem_cons, List.not_mem_nil, or_false] at hc
  rcases hc with rfl | rfl | rfl <;> simp

theorem passing_pattern (late : String) (V : Vec) (ref : String)
    (harr : ∀ l, (l = "a" ∨ l = "b" ∨ l = "c") → (((if l = late then 1 else 0) - (if ref = late then 1 else 0) : ℤ) : ℝ) * 10 = planeDelay (truePlace l) (truePlace ref) V) :
    PassingPattern CmvTf.flatTop 5 30 6 9 1 0.02 0 V truePlace CmvTf.upDown (fun l => if l = late then 1 else 0) ref (passing late) where
  recorded := fun c hc => (passing_mem hc).2
  arrival := fun c hc => harr _ (passing_mem hc).1
  segments := by norm_num [AsManyAsFit]
  band := by norm_num [passing]
  short := by
    intro c _
    by_cases h1 : c.1 = late <;> by_cases h2 : ref = late <;> simp only [h1, h2, if_true, if_false] <;> norm_num
  edges := by
    intro c _ k _ _
    have h01 : ∀ l : String, ((if l = late then 1 else 0 : ℤ) = 0 ∨ (if l = late then 1 else 0 : ℤ) = 1) := by
      intro l; split_ifs <;> simp
    simp only [show 6 - 6 / 2 = 3 from rfl]
    constructor
    · refine lt_of_lt_of_le ?_ (Finset.single_le_sum (f := fun i => ‖patternSpec (CmvTf.flatTop 6) (fun t => CmvTf.upDown (t - if ref = late then 1 else 0)) 6 (i * 3) k‖ ^ 2)
        (fun i _ => by positivity) (Finset.mem_range.2 (show 4 < 9 by norm_num)))
      simp only [CmvTf.flat_spec _ (h01 ref)]
      norm_num
    · refine le_of_eq ?_
      rw [Finset.sum_eq_zero]
      · ring
      · intro i hi
        rw [CmvTf.flat_edge _ _ (h01 ref) (h01 c.1) i (Finset.mem_range.1 hi)]
        ring

theorem passing_east (ref : String) (hr : ref = "a" ∨ ref = "b" ∨ ref = "c") :
    PassingPattern CmvTf.flatTop 5 30 6 9 1 0.02 0 (1, 0) truePlace CmvTf.upDown (fun l => if l = "b" then 1 else 0) ref (passing "b") := by
  refine passing_pattern _ _ _ fun l hl => ?_
  rcases hl with rfl | rfl | rfl <;> rcases hr with rfl | rfl | rfl <;> simp [planeDelay, truePlace]

theorem passing_north (ref : String) (hr : ref = "a" ∨ ref = "b" ∨ ref = "c") :
    PassingPattern CmvTf.flatTop 5 30 6 9 1 0.02 0 (0, 1) truePlace CmvTf.upDown (fun l => if l = "c" then 1 else 0) ref (passing "c") := by
  refine passing_pattern _ _ _ fun l hl => ?_
  rcases hl with rfl | rfl | rfl <;> rcases hr with rfl | rfl | rfl <;> simp [planeDelay, truePlace]

theorem wrong_mixed : MixedUp (coords "E" "N" wrongTable) ["b", "c"] [("b", "c"), ("c", "b")] truePlace where
  known := by simp [coords, wrongTable]
  bij := by
    refine ⟨?_, ?_⟩ <;> simp
    exact List.Perm.swap _ _ _
  moved := by
    intro p hp
    simp only [List.mem_cons, List.not_mem_nil, or_false] at hp
    rcases hp with rfl | rfl <;> simp [truePlace, posOf, coords, wrongTable]
  rest := by
    intro l hl hn
    simp only [coords, wrongTable, List.map_cons, List.map_nil, List.mem_cons, List.not_mem_nil, or_false] at hl hn
    rcases hl with rfl | rfl | rfl
    · simp [truePlace, posOf, coords, wrongTable]
    · simp at hn
    · simp at hn

/-- The hypotheses of C234 hold in a concrete case: the exchange of the sensors b and c is found in the records of two pulses. -/
example (lsa : LSA) (hl : IsLSA lsa) (nan : ℝ) (sort : SortValues String) (hs : IsSortValues sort) (k : ℕ) :
    ∃ data r, (∀ ref ∈ ["b", "c"], FromDataSets CmvTf.flatTop 5 (some 0.6) (some 0.02) "multi" (passing "b") (passing "c") (1, 0) (0, 1) ref (data ref)) ∧
      reassign lsa nan sort "all" 3 data ["b", "c"] wrongTable k = .ok r ∧ r.Perm [("b", "c"), ("c", "b")] := by
  have hr : ∀ ref ∈ ["b", "c"], ref = "a" ∨ ref = "b" ∨ ref = "c" := by simp
  have hnd : ((coords "E" "N" wrongTable).map Prod.fst).Nodup := by simp [coords, wrongTable]
  have hmem : ∀ ref ∈ ["b", "c"], ref ∈ (coords "E" "N" wrongTable).map Prod.fst := by simp [coords, wrongTable]
  have hcl : ∀ l, some (0.6 : ℝ) = some l → l < ((1 - (0 : ℝ)) / (1 + 0)) ^ 2 := by
    intro l hl; cases hl; norm_num
  have hd : ∀ ref, ∃ c, ref ∈ ["b", "c"] → FromDataSets CmvTf.flatTop 5 (some 0.6) (some 0.02) "multi" (passing "b") (passing "c") (1, 0) (0, 1) ref c := by
    intro ref
    by_cases h : ref ∈ ["b", "c"]
    · obtain ⟨r1, -, e1, -⟩ := measured CmvTf.flatTop hnd (d := passing "b") (by simp [passing, coords, wrongTable]) (by norm_num [passing]) le_rfl
        (passing_east ref (hr ref h)) (hmem ref h) hcl (Or.inl rfl)
      obtain ⟨r2, -, e2, -⟩ := measured CmvTf.flatTop hnd (d := passing "c") (by simp [passing, coords, wrongTable]) (by norm_num [passing]) le_rfl
        (passing_north ref (hr ref h)) (hmem ref h) hcl (Or.inl rfl)
      exact ⟨_, fun _ => ⟨r1, r2, e1, e2, rfl⟩⟩
    · exact ⟨(⟨0, [], []⟩, ⟨0, [], []⟩), fun h' => absurd h' h⟩
  choose data hdata using hd
  have hz : ∀ (T : ℝ) (K : ℕ), edgeError "multi" 0 T K = 0 := by
    intro T K
    unfold edgeError
    split_ifs <;> simp
  obtain ⟨r, -, h1, h2, -⟩ := C234_reassigned lsa hl nan hs 3 CmvTf.flatTop (passing "b") (passing "c") data ["b", "c"] wrongTable
    (by simp [wrongTable, Frame.index]) rfl (by simp) [("b", "c"), ("c", "b")] truePlace wrong_mixed (by simp [passing, wrongTable, Frame.index])
    (by simp [passing, wrongTable, Frame.index]) (by norm_num [passing]) (by norm_num [passing]) 5 30 30 6 6 9 9 1 1 0.02 0 0 le_rfl le_rfl (1, 0) (0, 1) (by norm_num)
    CmvTf.upDown CmvTf.upDown _ _ (fun ref h => passing_east ref (hr ref h)) (fun ref h => passing_north ref (hr ref h)) (some 0.6)
    (fun l hl => ⟨hcl l hl, hcl l hl⟩) "multi" (Or.inl rfl) hdata
    (by
      intro k hk l hl' hne
      rw [hz, hz]
      simp only [List.mem_cons, List.not_mem_nil, or_false] at hk hl'
      rcases hk with rfl | rfl <;> rcases hl' with rfl | rfl
      · exact absurd rfl hne
      · simp [pdist, posOf, coords, wrongTable]
      · simp [pdist, posOf, coords, wrongTable]
      · exact absurd rfl hne)
    (by
      intro p hp _
      rw [hz, hz]
      simp only [List.mem_cons, List.not_mem_nil, or_false] at hp
      rcases hp with rfl | rfl <;> simp [along, truePlace, posOf, coords, wrongTable]) k
  exact ⟨data, r, hdata, h1, h2⟩

end SST.Props.PredictTf
