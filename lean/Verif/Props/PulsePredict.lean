import Verif.Spec.PulsePredict
import Verif.Props.PulseHamming
import Verif.Props.NoiseFull

/-!
# C245: positions from isolated pulses, with the default window
-/

namespace SST.Props.PulsePredict
open SST SST.Field SST.Spec SST.Spatial SST.Tf SST.Props.PredictData SST.Props.Robust SST.Props.PredictTf SST.Props.NoiseFull

/-- The delays of a data set in which isolated pulses pass are exact. -/
theorem pulses_near {navgs n h S K : ℕ} {fl : ℝ} {V : Vec} {P : String → Vec} {q : ℤ → ℝ} {g : String → ℝ} {m : String → ℤ} {d : DataSet} (hdt : 0 < d.dt)
    (hp : PassingPulses navgs n h S K fl V P q g m d) {method : String} (hm : method = "multi" ∨ method = "fit") (ref : String) :
    DelaysNear hamming navgs (some 0.6) fl method V P ref d 0 := by
  intro x hx c hc
  obtain ⟨g1, r1⟩ := hp.recorded _ hx
  obtain ⟨g2, r2⟩ := hp.recorded _ hc
  simp only at g1 r1
  obtain ⟨home, hhome⟩ := hp.own
  have hown' : OwnHalf q h S [m ref, m c.1] := by
    refine ⟨home, fun t ht => ?_⟩
    obtain ⟨h1, h2, h3, h4⟩ := hhome t ht
    refine ⟨h1, h2, fun z hz => h3 z ?_, h4⟩
    simp only [List.mem_cons, List.not_mem_nil, or_false] at hz
    rcases hz with rfl | rfl
    · exact List.mem_map.2 ⟨_, hx, rfl⟩
    · exact List.mem_map.2 ⟨c, hc, rfl⟩
  obtain ⟨mask, γ, h1, -⟩ := C243_hamming ref c.1 q n navgs h S K (m ref) (m c.1) (g ref) (g c.1) d.dt fl .none hdt g1 g2 hp.segments.1 hp.segments.2
    (hp.short c hc _ hx) hp.pulse hown' hp.band.1 hp.band.2.1 hp.band.2.2.1 hp.band.2.2.2 method hm
  rw [← r1, ← r2] at h1
  refine ⟨_, mask, _, h1, ?_⟩
  rw [hp.arrival c hc _ hx, sub_self, abs_zero]

/-- From exact delays to the predicted place. -/
theorem predict_exact (x : Cmv.Ext) (nanD : List (Option ℝ) → List (Option ℝ) → Option ℝ) {sort : SortValues String} (hs : IsSortValues sort) (ham : ℕ → List ℝ)
    (d1 d2 : DataSet) (pts : List (String × Vec)) (hnd : (pts.map Prod.fst).Nodup) (hc1 : d1.cols.map Prod.fst = pts.map Prod.fst)
    (hc2 : d2.cols.map Prod.fst = pts.map Prod.fst) (ref : String) (href : ref ∈ pts.map Prod.fst) (P : String → Vec)
    (navgs : ℕ) (fl : ℝ) (V1 V2 : Vec) (hX : V1.1 * V2.2 - V1.2 * V2.1 ≠ 0) (cohLim : Option ℝ) (method : String)
    (h1 : DelaysNear ham navgs cohLim fl method V1 P ref d1 0) (h2 : DelaysNear ham navgs cohLim fl method V2 P ref d2 0)
    (mode : String) (hmode : mode ∈ ["coherence", "preavg", "global_coherence", "distance", "all"]) (n : ℤ) :
    ∃ pos s1 s2, predictData x nanD sort ham [d1, d2] pts false ref (some [V1, V2]) mode n navgs cohLim (some fl) method = .ok (pos, s1, s2) ∧
      ((∀ l ∈ s1.map Prod.fst, P l = posOf pts l) → (∀ l ∈ s2.map Prod.fst, P l = posOf pts l) →
        (s1 ≠ [] ∧ s2 ≠ [] ∧ along (P ref - posOf pts ref) V1 ≠ 0 ∧ along (P ref - posOf pts ref) V2 ≠ 0 → pos = (.fin (P ref).1, .fin (P ref).2)) ∧
        (¬ (s1 ≠ [] ∧ s2 ≠ [] ∧ along (P ref - posOf pts ref) V1 ≠ 0 ∧ along (P ref - posOf pts ref) V2 ≠ 0) → pos = (.nan, .nan))) := by
  obtain ⟨r1, τ1, e1, c1, b1⟩ := measured_of hnd hc1 h1 href
  obtain ⟨r2, τ2, e2, c2, b2⟩ := measured_of hnd hc2 h2 href
  obtain ⟨pos, s1, s2, hr, -, -, hsub1, hsub2, hall⟩ := C200_shift hs pts hnd P ref href mode hmode n V1 V2 hX τ1 τ2 _ _ c1 c2
  refine ⟨pos, s1, s2, by rw [predictData_ok e1 e2, hr], fun g1 g2 => ?_⟩
  have zero : ∀ S : List String, (∀ l ∈ S, P l = posOf pts l) → meanDisp P (posOf pts) S = 0 := by
    intro S hS
    have k1 : (S.map fun l => (P l).1 - (posOf pts l).1) = S.map fun _ => (0 : ℝ) := List.map_congr_left fun l hl => by rw [hS l hl, sub_self]
    have k2 : (S.map fun l => (P l).2 - (posOf pts l).2) = S.map fun _ => (0 : ℝ) := List.map_congr_left fun l hl => by rw [hS l hl, sub_self]
    unfold meanDisp
    rw [k1, k2]
    simp
  have noerr : ∀ (S : List String) (τ : String → ℝ) (V : Vec), (∀ l ∈ S, |τ l - planeDelay (P l) (P ref) V| ≤ 0) →
      meanOver S (fun l => τ l - planeDelay (P l) (P ref) V) = 0 := by
    intro S τ V h
    have := meanOver_abs_le S _ 0 le_rfl h
    exact abs_eq_zero.1 (le_antisymm this (abs_nonneg _))
  simp only at hall
  rw [zero _ g1, zero _ g2, noerr _ τ1 V1 fun l hl => b1 l (hsub1 l hl), noerr _ τ2 V2 fun l hl => b2 l (hsub2 l hl)] at hall
  simp only [sub_zero, mul_zero] at hall
  obtain ⟨k1, k2⟩ := hall
  constructor
  · rintro ⟨a1, a2, a3, a4⟩
    obtain ⟨y, hy, u1, u2⟩ := k1 a1 a2 a3 a4
    simp only [along, Prod.fst_zero, Prod.snd_zero, zero_mul, add_zero, neg_zero, Prod.fst_sub, Prod.snd_sub] at u1 u2
    have v1 : (V1.1 * V2.2 - V1.2 * V2.1) * (y.1 - (P ref).1) = 0 := by linear_combination V2.2 * u1 - V1.2 * u2
    have v2 : (V1.1 * V2.2 - V1.2 * V2.1) * (y.2 - (P ref).2) = 0 := by linear_combination V1.1 * u2 - V2.1 * u1
    have w1 : y.1 = (P ref).1 := sub_eq_zero.1 ((mul_eq_zero.1 v1).resolve_left hX)
    have w2 : y.2 = (P ref).2 := sub_eq_zero.1 ((mul_eq_zero.1 v2).resolve_left hX)
    rw [hy, w1, w2]
  · intro h
    apply k2
    by_contra hne
    push Not at hne
    exact h hne

/-- **C245.**  Two data sets hold records of isolated pulses that pass the true places with the velocities `V1` and `V2`; every sensor has a gain of its own.  With the default window
and coherence limit the prediction is exactly the true place of the reference if the sensors used are where the table says, or NaN in the case that the place in the
table differs from it only perpendicularly to one of the motions (or not at all), or no sensor is selected. -/
theorem C245_exact (x : Cmv.Ext) (nanD : List (Option ℝ) → List (Option ℝ) → Option ℝ) {sort : SortValues String} (hs : IsSortValues sort)
    (d1 d2 : DataSet) (pts : List (String × Vec)) (hnd : (pts.map Prod.fst).Nodup) (hc1 : d1.cols.map Prod.fst = pts.map Prod.fst)
    (hc2 : d2.cols.map Prod.fst = pts.map Prod.fst) (hdt1 : 0 < d1.dt) (hdt2 : 0 < d2.dt) (ref : String) (href : ref ∈ pts.map Prod.fst) (P : String → Vec)
    (navgs n1 n2 w1 w2 S1 S2 K1 K2 : ℕ) (fl : ℝ) (V1 V2 : Vec) (hX : V1.1 * V2.2 - V1.2 * V2.1 ≠ 0) (q1 q2 : ℤ → ℝ) (g1 g2 : String → ℝ)
    (m1 m2 : String → ℤ) (h1 : PassingPulses navgs n1 w1 S1 K1 fl V1 P q1 g1 m1 d1) (h2 : PassingPulses navgs n2 w2 S2 K2 fl V2 P q2 g2 m2 d2) (method : String)
    (hm : method = "multi" ∨ method = "fit") (mode : String) (hmode : mode ∈ ["coherence", "preavg", "global_coherence", "distance", "all"]) (n : ℤ) :
    ∃ pos s1 s2, predictData x nanD sort hamming [d1, d2] pts false ref (some [V1, V2]) mode n navgs (some 0.6) (some fl) method = .ok (pos, s1, s2) ∧
      ((∀ l ∈ s1.map Prod.fst, P l = posOf pts l) → (∀ l ∈ s2.map Prod.fst, P l = posOf pts l) →
        (s1 ≠ [] ∧ s2 ≠ [] ∧ along (P ref - posOf pts ref) V1 ≠ 0 ∧ along (P ref - posOf pts ref) V2 ≠ 0 → pos = (.fin (P ref).1, .fin (P ref).2)) ∧
        (¬ (s1 ≠ [] ∧ s2 ≠ [] ∧ along (P ref - posOf pts ref) V1 ≠ 0 ∧ along (P ref - posOf pts ref) V2 ≠ 0) → pos = (.nan, .nan))) :=
  predict_exact x nanD hs hamming d1 d2 pts hnd hc1 hc2 ref href P navgs fl V1 V2 hX (some 0.6) method (pulses_near hdt1 h1 hm ref) (pulses_near hdt2 h2 hm ref) mode hmode n

variable {κ : Type} [DecidableEq κ]

/-- **C245.**  The complete procedure (downselect 'all') finds every mix-up within inverters from such records, whatever the gains of the sensors, if every misplaced combiner is
displaced along both motions of a kept pair of windows. -/
theorem C245_procedure (lsa : LSA) (hl : IsLSA lsa) (nan : ℝ) {sort : SortValues String} (hs : IsSortValues sort) (n : ℤ)
    (keys : List κ) (hk : keys.Nodup) (V : κ → Vec) (d : κ → DataSet) (data : κ → String → CloudCase) (inv : String → String)
    (f : Frame String String ℝ) (hn : f.index.Nodup) (hcols : f.cols = ["E", "N"]) (hap : NamesApart inv f.index)
    (hfar : ∀ k ∈ f.index, ∀ l ∈ f.index, inv k = inv l → k ≠ l → posOf (coords "E" "N" f) k ≠ posOf (coords "E" "N" f) l)
    (truth : List (String × String)) (ht : WithinInverters inv f.index truth) (P : String → Vec)
    (hP : ∀ p ∈ truth, P p.1 = posOf (coords "E" "N" f) p.2)
    (hc : ∀ k ∈ keys, (d k).cols.map Prod.fst = f.index) (hdt : ∀ k ∈ keys, 0 < (d k).dt) (navgs : ℕ) (N w S K : κ → ℕ) (fl : ℝ)
    (q : κ → ℤ → ℝ) (g : κ → String → ℝ) (m : κ → String → ℤ) (hpat : ∀ k ∈ keys, PassingPulses navgs (N k) (w k) (S k) (K k) fl (V k) P (q k) (g k) (m k) (d k))
    (method : String) (hm : method = "multi" ∨ method = "fit")
    (hdata : ∀ k ∈ keys, ∀ ref ∈ f.index, FromWindow hamming navgs (some 0.6) (some fl) method (d k) (V k) ref (data k ref))
    (hobl : ∀ p ∈ truth, p.1 ≠ p.2 → ∃ w ∈ cmvPairs 45 V keys,
      along (P p.1 - posOf (coords "E" "N" f) p.1) (V w.1) ≠ 0 ∧ along (P p.1 - posOf (coords "E" "N" f) p.1) (V w.2) ≠ 0) :
    ∃ st, procLoop lsa nan (meanPredict sort "all" n (cmvPairs 45 V keys) data) inv f 10 (procInit f) = .ok (some st) ∧
      st.remap.Perm truth ∧ (∀ l ∈ f.index, posOf (coords "E" "N" st.layout) l = P l) ∧ st.changed = [] ∧ st.layouts.length ≤ 3 := by
  refine proc_of lsa hl nan hs n hamming keys hk V d data inv f hn hcols hap 0 le_rfl ?_ truth ht P hP hc navgs fl (fun _ => 0) (fun _ _ => by simp) (some 0.6) method
    (fun k hk ref _ => pulses_near (hdt k hk) (hpat k hk) hm ref) hdata ?_
  · intro k hk l hl' hi hne
    have h1 := hfar k hk l hl' hi hne
    rw [mul_zero]
    unfold pdist
    apply Real.sqrt_pos.2
    by_contra hc
    apply h1
    have a1 := sq_nonneg ((posOf (coords "E" "N" f) k).1 - (posOf (coords "E" "N" f) l).1)
    have a2 := sq_nonneg ((posOf (coords "E" "N" f) k).2 - (posOf (coords "E" "N" f) l).2)
    ext
    · exact sub_eq_zero.1 (pow_eq_zero_iff two_ne_zero |>.1 (by linarith))
    · exact sub_eq_zero.1 (pow_eq_zero_iff two_ne_zero |>.1 (by linarith))
  · intro p hp hne
    obtain ⟨w, hw, h1, h2⟩ := hobl p hp hne
    exact ⟨w, hw, by rw [zero_mul]; exact abs_pos.2 h1, by rw [zero_mul]; exact abs_pos.2 h2⟩

/-! ## A concrete case -/

/-- Records of two pulses when the sensor `late` sees them one sample of ten seconds after the others; sensor b shows half of the irradiance. -/
noncomputable def pulsing (late : String) : DataSet :=
  ⟨10, ["a", "b", "c"].map fun l => (l, recordOf (fun t => (if l = "b" then 1 / 2 else 1) * twoPulses t) 40 (if l = late then 1 else 0))⟩

theorem pulsing_mem {late : String} {c : String × List ℝ} (hc : c ∈ (pulsing late).cols) :
    (c.1 = "a" ∨ c.1 = "b" ∨ c.1 = "c") ∧ c.2 = recordOf (fun t => (if c.1 = "b" then 1 / 2 else 1) * twoPulses t) 40 (if c.1 = late then 1 else 0) := by
  simp only [pulsing, List.map_cons, List.map_nil, List.mem_cons, List.not_mem_nil, or_false] at hc
  rcases hc with rfl | rfl | rfl <;> simp

theorem pulsing_winds (k : Bool) : PassingPulses 5 40 4 9 1 0.02 (winds k) truePlace twoPulses (fun l => if l = "b" then 1 / 2 else 1)
    (fun l => if l = lastOf k then 1 else 0) (pulsing (lastOf k)) where
  recorded := fun c hc => ⟨by beta_reduce; split_ifs <;> norm_num, (pulsing_mem hc).2⟩
  arrival := by
    intro c hc c' hc'
    rcases (pulsing_mem hc).1 with h | h | h <;> rcases (pulsing_mem hc').1 with h' | h' | h' <;> rw [h, h'] <;> cases k <;>
      simp [planeDelay, truePlace, winds, lastOf, pulsing]
  segments := by norm_num [AsManyAsFit]
  band := by norm_num [pulsing]
  short := by
    intro c _ c' _
    beta_reduce
    split_ifs <;> norm_num
  pulse := ⟨6, by simp [twoPulses]⟩
  own := by
    obtain ⟨home, h⟩ := twoPulses_own 9 (by norm_num)
    refine ⟨home, fun t ht => ⟨(h t ht).1, (h t ht).2.1, fun z hz => (h t ht).2.2.1 z ?_, (h t ht).2.2.2⟩⟩
    obtain ⟨r, -, rfl⟩ := List.mem_map.1 hz
    beta_reduce
    split_ifs <;> simp

theorem pulsing_names (k : Bool) : (pulsing (lastOf k)).cols.map Prod.fst = wrongTable.index := by
  rw [wrong_index]; simp [pulsing]

example (lsa : LSA) (hl : IsLSA lsa) (nan : ℝ) (sort : SortValues String) (hs : IsSortValues sort) (data : Bool → String → CloudCase)
    (hdata : ∀ k, ∀ ref ∈ wrongTable.index, FromWindow hamming 5 (some 0.6) (some 0.02) "multi" (pulsing (lastOf k)) (winds k) ref (data k ref)) :
    ∃ st, procLoop lsa nan (meanPredict sort "all" 3 (cmvPairs 45 winds [false, true]) data) (fun _ => "I") wrongTable 10 (procInit wrongTable) = .ok (some st) ∧
      st.remap.Perm [("a", "a"), ("b", "c"), ("c", "b")] := by
  obtain ⟨st, h1, h2, -⟩ := C245_procedure lsa hl nan hs 3 [false, true] (by decide) winds (fun k => pulsing (lastOf k)) data (fun _ => "I") wrongTable
    (by rw [wrong_index]; decide) rfl demo_apart
    (by
      intro k hk l hl' hi hne he
      have := demo_far k hk l hl' rfl hne
      rw [he] at this
      have h0 : pdist (posOf (coords "E" "N" wrongTable) l) (posOf (coords "E" "N" wrongTable) l) = 0 := by simp [pdist]
      rw [h0] at this
      have := Real.sqrt_nonneg 2
      linarith)
    _ demo_within truePlace demo_moved (fun k _ => pulsing_names k) (fun k _ => by norm_num [pulsing]) 5
    (fun _ => 40) (fun _ => 4) (fun _ => 9) (fun _ => 1) 0.02 (fun _ => twoPulses) (fun _ l => if l = "b" then 1 / 2 else 1) (fun k l => if l = lastOf k then 1 else 0)
    (fun k _ => pulsing_winds k) "multi" (Or.inl rfl) (fun k _ => hdata k)
    (by
      intro p hp hne
      obtain ⟨w, hw, a1, a2⟩ := demo_obl p hp hne
      rw [winds_mag] at a1 a2
      exact ⟨w, hw, fun h0 => by rw [h0] at a1; norm_num at a1, fun h0 => by rw [h0] at a2; norm_num at a2⟩)
  exact ⟨st, h1, h2⟩

example (x : Cmv.Ext) (nanD : List (Option ℝ) → List (Option ℝ) → Option ℝ) (sort : SortValues String) (hs : IsSortValues sort) :
    ∃ pos s1 s2, predictData x nanD sort hamming [pulsing "b", pulsing "c"] (coords "E" "N" wrongTable) false "a" (some [(1, 0), (0, 1)]) "all" 3 5 (some 0.6) (some 0.02) "fit" =
      .ok (pos, s1, s2) :=
  have hix : (coords "E" "N" wrongTable).map Prod.fst = wrongTable.index := by
    unfold coords Frame.index
    rw [List.map_map]
    rfl
  have h := C245_exact x nanD hs (pulsing "b") (pulsing "c") (coords "E" "N" wrongTable) (by rw [hix, wrong_index]; decide) (by rw [hix]; exact pulsing_names false)
    (by rw [hix]; exact pulsing_names true) (by norm_num [pulsing]) (by norm_num [pulsing]) "a" (by rw [hix, wrong_index]; simp) truePlace 5 40 40 4 4 9 9 1 1 0.02 (1, 0) (0, 1)
    (by norm_num) twoPulses twoPulses _ _ _ _ (pulsing_winds false) (pulsing_winds true) "fit" (Or.inr rfl) "all" (by simp) 3
  ⟨h.choose, h.choose_spec.choose, h.choose_spec.choose_spec.choose, h.choose_spec.choose_spec.choose_spec.1⟩

/-- Such data exist: the records can be analysed for every reference. -/
example (k : Bool) (ref : String) (hr : ref ∈ wrongTable.index) :
    ∃ c, FromWindow hamming 5 (some 0.6) (some 0.02) "multi" (pulsing (lastOf k)) (winds k) ref c := by
  have hix : (coords "E" "N" wrongTable).map Prod.fst = wrongTable.index := by
    unfold coords Frame.index
    rw [List.map_map]
    rfl
  obtain ⟨r, τ, h1, -⟩ := measured_of (pts := coords "E" "N" wrongTable) (by rw [hix, wrong_index]; decide) (d := pulsing (lastOf k)) (by rw [hix]; exact pulsing_names k)
    (pulses_near (by norm_num [pulsing]) (pulsing_winds k) (Or.inl rfl) ref) (by rw [hix]; exact hr)
  exact ⟨_, r, h1, rfl⟩

end SST.Props.PulsePredict
