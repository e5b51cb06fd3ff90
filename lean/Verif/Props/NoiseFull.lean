import Verif.Spec.NoiseFull
import Verif.Props.NoisePredict
import Verif.Props.RobustFull

/-!
# C242: the complete reassignment procedure from the records of any number of windows

Specifications: `Spec/PredictTf.lean`, `Spec/NoisePredict.lean`, `Spec/NoiseFull.lean`, `Spec/FullProcess.lean`, `Spec/Reassign.lean`.
-/

namespace SST.Props.NoiseFull
open SST SST.Tf SST.Field SST.Spec SST.Spatial SST.Props.Robust SST.Props.FullProcess SST.Props.RobustFull SST.Props.PredictTf SST.Props.NoisePredict MeasureTheory

variable {κ : Type} [DecidableEq κ]

/-- From delays to the complete procedure. -/
theorem proc_of (lsa : LSA) (hl : IsLSA lsa) (nan : ℝ) {sort : SortValues String} (hs : IsSortValues sort) (n : ℤ) (ham : ℕ → List ℝ)
    (keys : List κ) (hk : keys.Nodup) (V : κ → Vec) (d : κ → DataSet) (data : κ → String → CloudCase) (inv : String → String)
    (f : Frame String String ℝ) (hn : f.index.Nodup) (hcols : f.cols = ["E", "N"]) (hap : NamesApart inv f.index) (D : ℝ) (hD : 0 ≤ D)
    (hfar : ∀ k ∈ f.index, ∀ l ∈ f.index, inv k = inv l → k ≠ l →
      4 * Real.sqrt 2 * D < pdist (posOf (coords "E" "N" f) k) (posOf (coords "E" "N" f) l))
    (truth : List (String × String)) (ht : WithinInverters inv f.index truth) (P : String → Vec)
    (hP : ∀ p ∈ truth, P p.1 = posOf (coords "E" "N" f) p.2)
    (hc : ∀ k ∈ keys, (d k).cols.map Prod.fst = f.index) (navgs : ℕ) (fl : ℝ) (ε : κ → ℝ) (hε : ∀ k ∈ keys, ε k * magnitude (V k) ≤ D)
    (cohLim : Option ℝ) (method : String) (hnear : ∀ k ∈ keys, ∀ ref ∈ f.index, DelaysNear ham navgs cohLim fl method (V k) P ref (d k) (ε k))
    (hdata : ∀ k ∈ keys, ∀ ref ∈ f.index, FromWindow ham navgs cohLim (some fl) method (d k) (V k) ref (data k ref))
    (hobl : ∀ p ∈ truth, p.1 ≠ p.2 → ∃ w ∈ cmvPairs 45 V keys,
      D * magnitude (V w.1) < |along (P p.1 - posOf (coords "E" "N" f) p.1) (V w.1)| ∧
      D * magnitude (V w.2) < |along (P p.1 - posOf (coords "E" "N" f) p.1) (V w.2)|) :
    ∃ st, procLoop lsa nan (meanPredict sort "all" n (cmvPairs 45 V keys) data) inv f 10 (procInit f) = .ok (some st) ∧
      st.remap.Perm truth ∧ (∀ l ∈ f.index, posOf (coords "E" "N" st.layout) l = P l) ∧ st.changed = [] ∧ st.layouts.length ≤ 3 := by
  have hix : (coords "E" "N" f).map Prod.fst = f.index := by
    unfold coords Frame.index
    rw [List.map_map]
    rfl
  have hex : ∀ k ref, ∃ τ : String → ℝ, k ∈ keys → ref ∈ f.index → MeasuredCase f.index (V k) τ (data k ref) ∧
      ∀ l ∈ f.index, |τ l - planeDelay (P l) (P ref) (V k)| ≤ ε k := by
    intro k ref
    by_cases h : k ∈ keys ∧ ref ∈ f.index
    · obtain ⟨r, τ, e, c, b⟩ := measured_of (hix ▸ hn) ((hc k h.1).trans hix.symm) (hnear k h.1 ref h.2) (hix ▸ h.2)
      obtain ⟨r', e', hd⟩ := hdata k h.1 ref h.2
      rw [e] at e'
      cases e'
      rw [hix] at b c
      exact ⟨τ, fun _ _ => ⟨hd ▸ c, b⟩⟩
    · exact ⟨fun _ => 0, fun h1 h2 => absurd ⟨h1, h2⟩ h⟩
  choose τ hτ using hex
  exact C203_noise lsa hl nan hs n keys hk V τ data inv f hn hcols hap D hD hfar truth ht P hP (fun k hk l hl => (hτ k l hk hl).1)
    (fun k hk l hl j hj => (mul_le_mul_of_nonneg_right ((hτ k l hk hl).2 j hj) (Real.sqrt_nonneg _)).trans (hε k hk)) hobl

/-- **C242.**  The complete procedure (downselect 'all') finds every mix-up within inverters from the records: every window `k` recorded a pattern `q k` passing the true places with the
velocity `V k`, with edge effects of the part `ρ k`; no error of a delay is more than `D` metres of cloud travel, places of one inverter are more than `4√2 D` apart and every misplaced
combiner is displaced by more than `D` along both motions of a kept pair of windows. -/
theorem C242_records (lsa : LSA) (hl : IsLSA lsa) (nan : ℝ) {sort : SortValues String} (hs : IsSortValues sort) (n : ℤ) (ham : ℕ → List ℝ)
    (keys : List κ) (hk : keys.Nodup) (V : κ → Vec) (d : κ → DataSet) (data : κ → String → CloudCase) (inv : String → String)
    (f : Frame String String ℝ) (hn : f.index.Nodup) (hcols : f.cols = ["E", "N"]) (hap : NamesApart inv f.index) (D : ℝ) (hD : 0 ≤ D)
    (hfar : ∀ k ∈ f.index, ∀ l ∈ f.index, inv k = inv l → k ≠ l →
      4 * Real.sqrt 2 * D < pdist (posOf (coords "E" "N" f) k) (posOf (coords "E" "N" f) l))
    (truth : List (String × String)) (ht : WithinInverters inv f.index truth) (P : String → Vec)
    (hP : ∀ p ∈ truth, P p.1 = posOf (coords "E" "N" f) p.2)
    (hc : ∀ k ∈ keys, (d k).cols.map Prod.fst = f.index) (hdt : ∀ k ∈ keys, 0 < (d k).dt) (navgs : ℕ) (N L S K : κ → ℕ) (fl : ℝ) (ρ : κ → ℝ) (hρ : ∀ k ∈ keys, 0 ≤ ρ k)
    (q : κ → ℤ → ℝ) (m : κ → String → ℤ) (hpat : ∀ k ∈ keys, ∀ ref ∈ f.index, PassingPattern ham navgs (N k) (L k) (S k) (K k) fl (ρ k) (V k) P (q k) (m k) ref (d k))
    (cohLim : Option ℝ) (hcl : ∀ k ∈ keys, ∀ l, cohLim = some l → l < ((1 - ρ k) / (1 + ρ k)) ^ 2) (method : String) (hm : method = "multi" ∨ method = "fit")
    (hdata : ∀ k ∈ keys, ∀ ref ∈ f.index, FromWindow ham navgs cohLim (some fl) method (d k) (V k) ref (data k ref))
    (hε : ∀ k ∈ keys, edgeError method (ρ k) (L k * (d k).dt) (K k) * magnitude (V k) ≤ D)
    (hobl : ∀ p ∈ truth, p.1 ≠ p.2 → ∃ w ∈ cmvPairs 45 V keys,
      D * magnitude (V w.1) < |along (P p.1 - posOf (coords "E" "N" f) p.1) (V w.1)| ∧
      D * magnitude (V w.2) < |along (P p.1 - posOf (coords "E" "N" f) p.1) (V w.2)|) :
    ∃ st, procLoop lsa nan (meanPredict sort "all" n (cmvPairs 45 V keys) data) inv f 10 (procInit f) = .ok (some st) ∧
      st.remap.Perm truth ∧ (∀ l ∈ f.index, posOf (coords "E" "N" st.layout) l = P l) ∧ st.changed = [] ∧ st.layouts.length ≤ 3 :=
  proc_of lsa hl nan hs n ham keys hk V d data inv f hn hcols hap D hD hfar truth ht P hP hc navgs fl _ hε cohLim method
    (fun k hk ref hr => pattern_near ham (hdt k hk) (hρ k hk) (hpat k hk ref hr) (hcl k hk) hm) hdata hobl

variable {Ω : Type} [MeasurableSpace Ω] {Pr : Measure Ω} [IsProbabilityMeasure Pr]

/-- Events that are each unlikely. -/
theorem prob_list (keys : List κ) (A : κ → Set Ω) (a : κ → ℝ) (hA : ∀ k ∈ keys, Pr.real (A k)ᶜ ≤ a k) : Pr.real {ω | ∀ k ∈ keys, ω ∈ A k}ᶜ ≤ (keys.map a).sum := by
  induction keys with
  | nil => simp
  | cons k l ih =>
    rw [List.map_cons, List.sum_cons]
    refine prob_two (A := A k) (B := {ω | ∀ k ∈ l, ω ∈ A k}) (hA k (by simp)) (ih fun k' h => hA k' (by simp [h])) ?_
    rintro ω ⟨h1, h2⟩
    exact List.forall_mem_cons.2 ⟨h1, h2⟩

/-- **C242.**  White noise at every combiner in every window: the complete procedure fails to find the mix-up with probability at most the number of combiners times the sum, over the windows
and the bins used, of the expected power of the noise over the part `η²` of the power of the pattern. -/
theorem C242_noise (lsa : LSA) (hl : IsLSA lsa) (nan : ℝ) {sort : SortValues String} (hs : IsSortValues sort) (n : ℤ) (ham : ℕ → List ℝ)
    (keys : List κ) (hk : keys.Nodup) (V : κ → Vec) (d : κ → DataSet) (inv : String → String)
    (f : Frame String String ℝ) (hn : f.index.Nodup) (hcols : f.cols = ["E", "N"]) (hap : NamesApart inv f.index) (D : ℝ) (hD : 0 ≤ D)
    (hfar : ∀ k ∈ f.index, ∀ l ∈ f.index, inv k = inv l → k ≠ l →
      4 * Real.sqrt 2 * D < pdist (posOf (coords "E" "N" f) k) (posOf (coords "E" "N" f) l))
    (truth : List (String × String)) (ht : WithinInverters inv f.index truth) (P : String → Vec)
    (hP : ∀ p ∈ truth, P p.1 = posOf (coords "E" "N" f) p.2)
    (hc : ∀ k ∈ keys, (d k).cols.map Prod.fst = f.index) (hdt : ∀ k ∈ keys, 0 < (d k).dt) (navgs : ℕ) (N L S K : κ → ℕ) (hw : ∀ k ∈ keys, (ham (L k)).length = L k) (fl : ℝ) (ρ η : κ → ℝ)
    (hρ : ∀ k ∈ keys, 0 ≤ ρ k) (hη : ∀ k ∈ keys, 0 < η k ∧ η k < 1)
    (q : κ → ℤ → ℝ) (m : κ → String → ℤ) (hpat : ∀ k ∈ keys, ∀ ref ∈ f.index, PassingPattern ham navgs (N k) (L k) (S k) (K k) fl (ρ k) (V k) P (q k) (m k) ref (d k))
    (hfit : ∀ k ∈ keys, AsManyAsFit (N k) (L k) (L k - L k / 2) (S k))
    (hshort : ∀ k ∈ keys, ∀ ref ∈ f.index, ∀ c ∈ (d k).cols, 2 * |((m k c.1 - m k ref : ℤ) : ℝ)| < (1 - jointPart (ρ k) (η k)) * L k)
    (p : κ → ℕ → ℝ) (hp : ∀ k ∈ keys, ∀ b ≤ K k, 0 < p k b ∧ ∀ ref ∈ f.index, p k b ≤ binPower (ham (L k)) (fun t => q k (t - m k ref)) (L k) (S k) b)
    (u : κ → String → ℕ → Ω → ℝ) (σ : κ → ℝ) (hu : ∀ k ∈ keys, ∀ l, WhiteNoise Pr (u k l) (σ k))
    (cohLim : Option ℝ) (hcl : ∀ k ∈ keys, ∀ l, cohLim = some l → l < ((1 - jointPart (ρ k) (η k)) / (1 + jointPart (ρ k) (η k))) ^ 2) (method : String)
    (hm : method = "multi" ∨ method = "fit")
    (hε : ∀ k ∈ keys, edgeError method (jointPart (ρ k) (η k)) (L k * (d k).dt) (K k) * magnitude (V k) ≤ D)
    (hobl : ∀ p ∈ truth, p.1 ≠ p.2 → ∃ w ∈ cmvPairs 45 V keys,
      D * magnitude (V w.1) < |along (P p.1 - posOf (coords "E" "N" f) p.1) (V w.1)| ∧
      D * magnitude (V w.2) < |along (P p.1 - posOf (coords "E" "N" f) p.1) (V w.2)|) :
    Pr.real {ω | (∀ k ∈ keys, ∀ ref ∈ f.index, ∃ c, FromWindow ham navgs cohLim (some fl) method (withNoise (d k) fun l i => u k l i ω) (V k) ref c) ∧
        ∀ data : κ → String → CloudCase, (∀ k ∈ keys, ∀ ref ∈ f.index, FromWindow ham navgs cohLim (some fl) method (withNoise (d k) fun l i => u k l i ω) (V k) ref (data k ref)) →
        ∃ st, procLoop lsa nan (meanPredict sort "all" n (cmvPairs 45 V keys) data) inv f 10 (procInit f) = .ok (some st) ∧
          st.remap.Perm truth ∧ (∀ l ∈ f.index, posOf (coords "E" "N" st.layout) l = P l) ∧ st.changed = [] ∧ st.layouts.length ≤ 3}ᶜ ≤
      f.index.length * (keys.map fun k => ∑ b ∈ Finset.range (K k + 1), S k * (σ k ^ 2 * ((ham (L k)).map fun v => v ^ 2).sum) / (η k ^ 2 * p k b)).sum := by
  have b : ∀ k ∈ keys, Pr.real {ω | Quiet (ham (L k)) (L k) (S k) (K k) (η k) (p k) (d k) fun l i => u k l i ω}ᶜ ≤
      f.index.length * ∑ b ∈ Finset.range (K k + 1), S k * (σ k ^ 2 * ((ham (L k)).map fun v => v ^ 2).sum) / (η k ^ 2 * p k b) := by
    intro k hk
    have n1 : (d k).cols.length = f.index.length := by simpa using congrArg List.length (hc k hk)
    rw [← n1]
    exact quiet_probability (hu k hk) (by have := (hfit k hk).1; omega) (hw k hk) (hfit k hk) (hη k hk).1 (fun j hj => (hp k hk j hj).1) (d k)
  have hall := prob_list (Pr := Pr) keys _ _ b
  rw [List.sum_map_mul_left] at hall
  refine (measureReal_mono (Set.compl_subset_compl.2 ?_) (measure_ne_top _ _)).trans hall
  intro ω g
  simp only [Set.mem_ofPred_eq] at g ⊢
  have near : ∀ k ∈ keys, ∀ ref ∈ f.index, DelaysNear ham navgs cohLim fl method (V k) P ref (withNoise (d k) fun l i => u k l i ω) (edgeError method (jointPart (ρ k) (η k)) (L k * (d k).dt) (K k)) :=
    fun k hk ref hr => noisy_near (hdt k hk) (hρ k hk) (hη k hk).1.le (hη k hk).2 (hpat k hk ref hr) (hshort k hk ref hr) (fun j hj => ⟨(hp k hk j hj).1, (hp k hk j hj).2 ref hr⟩) (g k hk) (hcl k hk) hm
  have hix : (coords "E" "N" f).map Prod.fst = f.index := by
    unfold coords Frame.index
    rw [List.map_map]
    rfl
  refine ⟨fun k hk ref hr => ?_, fun data hdata => ?_⟩
  · obtain ⟨r, -, e, -⟩ := measured_of (hix ▸ hn) (((noise_names _ _).trans (hc k hk)).trans hix.symm) (near k hk ref hr) (hix ▸ hr)
    exact ⟨_, r, e, rfl⟩
  · exact proc_of lsa hl nan hs n ham keys hk V _ data inv f hn hcols hap D hD hfar truth ht P hP (fun k hk => (noise_names _ _).trans (hc k hk)) navgs fl _ hε cohLim method near hdata hobl

/-! ## A concrete case: one inverter with the combiners a, b, c, of which b and c are exchanged in the plan; two windows -/

/-- Cloud vectors of the two windows. -/
noncomputable def winds (k : Bool) : Vec := if k then (0, 1) else (1, 0)

/-- The combiner that sees the pattern of the window last. -/
def lastOf (k : Bool) : String := if k then "c" else "b"

theorem winds_pattern (k : Bool) (ref : String) (hr : ref = "a" ∨ ref = "b" ∨ ref = "c") :
    PassingPattern CmvTf.flatTop 5 30 6 9 1 0.02 0 (winds k) truePlace CmvTf.upDown (fun l => if l = lastOf k then 1 else 0) ref (passing (lastOf k)) := by
  cases k
  · exact passing_east ref hr
  · exact passing_north ref hr

theorem wrong_index : wrongTable.index = ["a", "b", "c"] := by simp [wrongTable, Frame.index]

theorem wrong_coords : coords "E" "N" wrongTable = [("a", (0, 0)), ("b", (0, 10)), ("c", (10, 0))] := by simp [coords, wrongTable]

theorem wrong_places : posOf (coords "E" "N" wrongTable) "a" = (0, 0) ∧ posOf (coords "E" "N" wrongTable) "b" = (0, 10) ∧ posOf (coords "E" "N" wrongTable) "c" = (10, 0) := by
  rw [wrong_coords]
  simp [posOf]

theorem true_places : truePlace "a" = (0, 0) ∧ truePlace "b" = (10, 0) ∧ truePlace "c" = (0, 10) := by simp [truePlace]

theorem multi_error (ρ T : ℝ) (K : ℕ) : edgeError "multi" ρ T K = ρ * T / (2 * K) := by unfold edgeError; rw [if_neg (by decide +kernel)]

theorem winds_mag (k : Bool) : magnitude (winds k) = 1 := by cases k <;> simp [winds, magnitude]

theorem demo_apart : NamesApart (fun _ : String => "I") wrongTable.index := fun _ _ _ _ _ => rfl

theorem demo_within : WithinInverters (fun _ : String => "I") wrongTable.index [("a", "a"), ("b", "c"), ("c", "b")] := by
  rw [wrong_index]
  refine ⟨⟨?_, ?_⟩, fun _ _ => rfl⟩
  · simp
  · simp only [List.map_cons, List.map_nil]
    exact List.Perm.cons _ (List.Perm.swap _ _ _)

theorem demo_moved : ∀ p ∈ [("a", "a"), ("b", "c"), ("c", "b")], truePlace p.1 = posOf (coords "E" "N" wrongTable) p.2 := by
  rw [wrong_coords]
  intro p hp
  simp only [List.mem_cons, List.not_mem_nil, or_false] at hp
  rcases hp with rfl | rfl | rfl <;> simp [truePlace, posOf]

theorem demo_far : ∀ k ∈ wrongTable.index, ∀ l ∈ wrongTable.index, "I" = "I" → k ≠ l →
    4 * Real.sqrt 2 * 1 < pdist (posOf (coords "E" "N" wrongTable) k) (posOf (coords "E" "N" wrongTable) l) := by
  have hs2 : Real.sqrt 2 < 3 / 2 := by
    rw [Real.sqrt_lt' (by norm_num)]; norm_num
  rw [wrong_index]
  intro k hk l hl _ hne
  refine lt_of_lt_of_le (b := 10) (by linarith) ?_
  unfold pdist
  apply Real.le_sqrt_of_sq_le
  simp only [List.mem_cons, List.not_mem_nil, or_false] at hk hl
  rcases hk with rfl | rfl | rfl <;> rcases hl with rfl | rfl | rfl <;> first | exact absurd rfl hne | (simp only [wrong_places]; norm_num)

theorem demo_obl : ∀ p ∈ [("a", "a"), ("b", "c"), ("c", "b")], p.1 ≠ p.2 → ∃ w ∈ cmvPairs 45 winds [false, true],
    1 * magnitude (winds w.1) < |along (truePlace p.1 - posOf (coords "E" "N" wrongTable) p.1) (winds w.1)| ∧
    1 * magnitude (winds w.2) < |along (truePlace p.1 - posOf (coords "E" "N" wrongTable) p.1) (winds w.2)| := by
  have hw := (C176_45_degrees winds [false, true] (by decide) false true (by simp) (by simp) (by simp)).2 (by simp [winds])
  have hall : ∀ p ∈ [("a", "a"), ("b", "c"), ("c", "b")], p.1 ≠ p.2 → ∀ k : Bool,
      1 * magnitude (winds k) < |along (truePlace p.1 - posOf (coords "E" "N" wrongTable) p.1) (winds k)| := by
    intro p hp hne k
    rw [winds_mag, lt_abs]
    simp only [List.mem_cons, List.not_mem_nil, or_false] at hp
    rcases hp with rfl | rfl | rfl
    · exact absurd rfl hne
    · cases k <;> simp only [wrong_places, true_places] <;> norm_num [along, winds]
    · cases k <;> simp only [wrong_places, true_places] <;> norm_num [along, winds]
  intro p hp hne
  rcases hw with h | h
  · exact ⟨_, h, hall p hp hne _, hall p hp hne _⟩
  · exact ⟨_, h, hall p hp hne _, hall p hp hne _⟩

theorem demo_part : jointPart 0 0.01 = 2 / 99 := by norm_num [jointPart]

theorem demo_names (k : Bool) : (passing (lastOf k)).cols.map Prod.fst = wrongTable.index := by
  rw [wrong_index]; simp [passing]

/-- From the records alone. -/
example (lsa : LSA) (hl : IsLSA lsa) (nan : ℝ) (sort : SortValues String) (hs : IsSortValues sort) (data : Bool → String → CloudCase)
    (hdata : ∀ k, ∀ ref ∈ wrongTable.index, FromWindow CmvTf.flatTop 5 (some 0.6) (some 0.02) "multi" (passing (lastOf k)) (winds k) ref (data k ref)) :
    ∃ st, procLoop lsa nan (meanPredict sort "all" 3 (cmvPairs 45 winds [false, true]) data) (fun _ => "I") wrongTable 10 (procInit wrongTable) = .ok (some st) ∧
      st.remap.Perm [("a", "a"), ("b", "c"), ("c", "b")] := by
  obtain ⟨st, h1, h2, -⟩ := C242_records lsa hl nan hs 3 CmvTf.flatTop [false, true] (by decide) winds (fun k => passing (lastOf k)) data (fun _ => "I") wrongTable
    (by rw [wrong_index]; decide) rfl demo_apart 1 zero_le_one demo_far _ demo_within truePlace demo_moved (fun k _ => demo_names k) (fun k _ => by norm_num [passing]) 5
    (fun _ => 30) (fun _ => 6) (fun _ => 9) (fun _ => 1) 0.02 (fun _ => 0) (fun _ _ => le_rfl) (fun _ => CmvTf.upDown) (fun k l => if l = lastOf k then 1 else 0)
    (fun k _ ref hr => winds_pattern k ref (by rw [wrong_index] at hr; simpa using hr)) (some 0.6) (fun _ _ l hl => by cases hl; norm_num) "multi" (Or.inl rfl) (fun k _ => hdata k)
    (fun k _ => by rw [winds_mag, multi_error]; norm_num) demo_obl
  exact ⟨st, h1, h2⟩

/-- With noise: the probability that the exchange is not found is at most a constant times the variance of the noise. -/
example (lsa : LSA) (hl : IsLSA lsa) (nan : ℝ) (sort : SortValues String) (hs : IsSortValues sort) : ∃ C : ℝ, ∀ (u : Bool → String → ℕ → Ω → ℝ) (σ : ℝ), (∀ k l, WhiteNoise Pr (u k l) σ) →
    Pr.real {ω | ∀ data : Bool → String → CloudCase, (∀ k, ∀ ref ∈ wrongTable.index,
        FromWindow CmvTf.flatTop 5 (some 0.6) (some 0.02) "multi" (withNoise (passing (lastOf k)) fun l i => u k l i ω) (winds k) ref (data k ref)) →
      ∃ st, procLoop lsa nan (meanPredict sort "all" 3 (cmvPairs 45 winds [false, true]) data) (fun _ => "I") wrongTable 10 (procInit wrongTable) = .ok (some st) ∧
        st.remap.Perm [("a", "a"), ("b", "c"), ("c", "b")]}ᶜ ≤ C * σ ^ 2 := by
  have href : ∀ ref ∈ wrongTable.index, ref = "a" ∨ ref = "b" ∨ ref = "c" := by
    intro ref hr; rw [wrong_index] at hr; simpa using hr
  let pw : Bool → String → ℕ → ℝ := fun k ref b => binPower (CmvTf.flatTop 6) (fun t => CmvTf.upDown (t - (if ref = lastOf k then 1 else 0 : ℤ))) 6 9 b
  let p : Bool → ℕ → ℝ := fun k b => min (pw k "a" b) (min (pw k "b" b) (pw k "c" b))
  have hp : ∀ k, ∀ b ≤ 1, 0 < p k b ∧ ∀ ref ∈ wrongTable.index, p k b ≤ pw k ref b := by
    intro k b hb
    have pos : ∀ ref, ref = "a" ∨ ref = "b" ∨ ref = "c" → 0 < pw k ref b := fun ref hr =>
      power_pos (by norm_num [passing]) (by rw [demo_names, wrong_index]; simpa using hr) (winds_pattern k ref hr) b hb
    refine ⟨lt_min (pos _ (by simp)) (lt_min (pos _ (by simp)) (pos _ (by simp))), fun ref hr => ?_⟩
    rcases href ref hr with rfl | rfl | rfl
    · exact min_le_left _ _
    · exact (min_le_right _ _).trans (min_le_left _ _)
    · exact (min_le_right _ _).trans (min_le_right _ _)
  refine ⟨3 * ([false, true].map fun k => ∑ b ∈ Finset.range 2, 9 * ((CmvTf.flatTop 6).map fun v => v ^ 2).sum / (0.01 ^ 2 * p k b)).sum, fun u σ hu => ?_⟩
  have h := C242_noise lsa hl nan hs 3 CmvTf.flatTop [false, true] (by decide) winds (fun k => passing (lastOf k)) (fun _ => "I") wrongTable
    (by rw [wrong_index]; decide) rfl demo_apart 1 zero_le_one demo_far _ demo_within truePlace demo_moved (fun k _ => demo_names k) (fun k _ => by norm_num [passing]) 5
    (fun _ => 30) (fun _ => 6) (fun _ => 9) (fun _ => 1) (fun _ _ => by simp [CmvTf.flatTop]) 0.02 (fun _ => 0) (fun _ => 0.01) (fun _ _ => le_rfl) (fun _ _ => by norm_num) (fun _ => CmvTf.upDown)
    (fun k l => if l = lastOf k then 1 else 0) (fun k _ ref hr => winds_pattern k ref (href ref hr)) (fun k _ => (winds_pattern k "a" (Or.inl rfl)).segments.2)
    (by
      intro k _ ref _ c _
      rw [demo_part]
      by_cases h1 : c.1 = lastOf k <;> by_cases h2 : ref = lastOf k <;> simp only [h1, h2, if_true, if_false] <;> norm_num)
    p (fun k _ b hb => hp k b hb) u (fun _ => σ) (fun k _ => hu k) (some 0.6) (fun _ _ l hl => by cases hl; rw [demo_part]; norm_num) "multi" (Or.inl rfl)
    (fun k _ => by rw [winds_mag, demo_part, multi_error]; norm_num [passing]) demo_obl
  refine (measureReal_mono (Set.compl_subset_compl.2 ?_) (measure_ne_top _ _)).trans (h.trans (le_of_eq ?_))
  · intro ω g
    simp only [Set.mem_ofPred_eq] at g ⊢
    intro data hd
    obtain ⟨st, h1, h2, -⟩ := g.2 data fun k _ => hd k
    exact ⟨st, h1, h2⟩
  · rw [wrong_index]
    simp only [List.map_cons, List.map_nil, List.sum_cons, List.sum_nil, List.length_cons, List.length_nil, Finset.sum_range_succ, Finset.sum_range_zero]
    push_cast
    ring

end SST.Props.NoiseFull
