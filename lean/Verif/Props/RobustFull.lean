import Verif.Props.Robust
import Verif.Props.FullProcessTwo

/-!
# Property C203: the complete reassignment procedure with inexact delays

Specifications: `Spec/Robust.lean`, `Spec/FullProcess.lean`, `Spec/Reassign.lean`.
-/

namespace SST.Props.RobustFull
open SST SST.Field SST.Spec SST.Spatial SST.Props.Robust SST.Props.FullProcess

private theorem pdist_add (a b c d : Vec) : pdist (a + b) (c + d) ≤ pdist a c + pdist b d := by
  have h1 := pdist_triangle (a + b) (c + b) (c + d)
  have h2 : pdist (a + b) (c + b) = pdist a c := by unfold pdist; congr 1; simp
  have h3 : pdist (c + b) (c + d) = pdist b d := by unfold pdist; congr 1; simp
  linarith

/-- The mean of points near `x` is near `x`. -/
private theorem mean_near (x : Vec) (B : ℝ) : ∀ L : List Vec, L ≠ [] → (∀ p ∈ L, pdist p x ≤ B) →
    pdist (mean (L.map Prod.fst), mean (L.map Prod.snd)) x ≤ B := by
  have hsum : ∀ L : List Vec, (∀ p ∈ L, pdist p x ≤ B) →
      pdist ((L.map Prod.fst).sum, (L.map Prod.snd).sum) (L.length * x.1, L.length * x.2) ≤ L.length * B := by
    intro L
    induction L with
    | nil => intro _; simp [pdist]
    | cons p L ih =>
      intro h
      have h1 := h p (by simp)
      have h2 := ih fun q hq => h q (by simp [hq])
      have h3 := pdist_add p ((L.map Prod.fst).sum, (L.map Prod.snd).sum) x (L.length * x.1, L.length * x.2)
      have e1 : (((p :: L).map Prod.fst).sum, ((p :: L).map Prod.snd).sum) = p + ((L.map Prod.fst).sum, (L.map Prod.snd).sum) := by
        ext <;> simp
      have e2 : (((p :: L).length * x.1, (p :: L).length * x.2) : Vec) = x + (L.length * x.1, L.length * x.2) := by
        ext <;> simp <;> ring
      rw [e1, e2]
      rw [List.length_cons]
      push_cast
      linarith
  intro L hne h
  have hl : (0 : ℝ) < L.length := by
    have := List.length_pos_iff.2 hne
    exact_mod_cast this
  have key : pdist (mean (L.map Prod.fst), mean (L.map Prod.snd)) x =
      pdist ((L.map Prod.fst).sum, (L.map Prod.snd).sum) (L.length * x.1, L.length * x.2) / L.length := by
    unfold pdist mean
    simp only [List.length_map]
    rw [← Real.sqrt_sq hl.le, ← Real.sqrt_div' _ (by positivity), Real.sqrt_sq hl.le]
    congr 1
    field_simp
  rw [key, div_le_iff₀ hl, mul_comm B]
  exact hsum L h

/-- The mean of predictions each of which is near the place `x` or NaN. -/
private theorem meanRows_near (rows : List PredRow) (x : Vec) (B : ℝ)
    (h : ∀ r ∈ rows, r = ⟨none, none, []⟩ ∨ ∃ y : Vec, r = ⟨some y.1, some y.2, []⟩ ∧ pdist y x ≤ B) :
    ((∀ r ∈ rows, r = ⟨none, none, []⟩) ∧ meanRows rows = ⟨none, none, []⟩) ∨
    ∃ y : Vec, meanRows rows = ⟨some y.1, some y.2, []⟩ ∧ pdist y x ≤ B := by
  have hL : ∃ L : List Vec, rows.filterMap PredRow.e = L.map Prod.fst ∧ rows.filterMap PredRow.n = L.map Prod.snd ∧
      (∀ p ∈ L, pdist p x ≤ B) ∧ (L = [] → ∀ r ∈ rows, r = ⟨none, none, []⟩) := by
    induction rows with
    | nil => exact ⟨[], by simp⟩
    | cons r rows ih =>
      obtain ⟨L, h1, h2, h3, h4⟩ := ih fun q hq => h q (by simp [hq])
      rcases h r (by simp) with rfl | ⟨y, rfl, hy⟩
      · refine ⟨L, by simpa using h1, by simpa using h2, h3, ?_⟩
        intro hl q hq
        rcases List.mem_cons.1 hq with rfl | hq
        · rfl
        · exact h4 hl q hq
      · refine ⟨y :: L, by simp [h1], by simp [h2], ?_, by simp⟩
        intro p hp
        rcases List.mem_cons.1 hp with rfl | hp
        · exact hy
        · exact h3 p hp
  obtain ⟨L, h1, h2, h3, h4⟩ := hL
  unfold meanRows
  rw [h1, h2]
  by_cases hl : L = []
  · left
    refine ⟨h4 hl, ?_⟩
    subst hl
    simp [meanO]
  · right
    refine ⟨(mean (L.map Prod.fst), mean (L.map Prod.snd)), ?_, mean_near x B L hl h3⟩
    simp [meanO, hl]

section
variable {ι κ : Type} [LinearOrder ι]

/-- What the mean prediction is on a table in which the sites stand on places of the plant in any order. -/
private theorem mean_prediction {sort : SortValues ι} (hs : IsSortValues sort) (n : ℤ) [DecidableEq κ] (keys : List κ) (hk : keys.Nodup)
    (V : κ → Vec) (τ : κ → ι → ι → ℝ) (data : κ → ι → CloudCase) (D : ℝ) (hD : 0 ≤ D) (f : Frame ι String ℝ) (hn : f.index.Nodup)
    (tr : List (ι × ι)) (P : ι → Vec) (hmix : MixedUp (tablePts f) f.index tr P)
    (hd : ∀ k ∈ keys, ∀ l ∈ f.index, MeasuredCase f.index (V k) (τ k l) (data k l))
    (hb : ∀ k ∈ keys, ∀ l ∈ f.index, ∀ j ∈ f.index, |τ k l j - planeDelay (P j) (P l) (V k)| * magnitude (V k) ≤ D)
    (l : ι) (hl : l ∈ f.index) :
    ∃ p, meanPredict sort "all" n (cmvPairs 45 V keys) data f l = .ok p ∧
      ((p.hasNaN = true ∧ ∀ w ∈ cmvPairs 45 V keys, ¬ (D * magnitude (V w.1) < |along (P l - posOf (tablePts f) l) (V w.1)| ∧
        D * magnitude (V w.2) < |along (P l - posOf (tablePts f) l) (V w.2)|)) ∨
       (p.hasNaN = false ∧ pdist (p.e.getD 0, p.n.getD 0) (P l) ≤ 2 * Real.sqrt 2 * D)) := by
  have hpairs := (C176_pairs 45 (by norm_num) (by norm_num) V keys hk).2.1
  have hix : (tablePts f).map Prod.fst = f.index := tablePts_index f
  have hchoose : ∀ w : κ × κ, ∃ row : PredRow, w ∈ cmvPairs 45 V keys →
      (predictedPosition sort (tablePts f) false l "all" n (data w.1 l) (data w.2 l)).map (fun r => storeRow r.1) = .ok row ∧
      ((row = ⟨none, none, []⟩ ∧ ¬ (D * magnitude (V w.1) < |along (P l - posOf (tablePts f) l) (V w.1)| ∧
        D * magnitude (V w.2) < |along (P l - posOf (tablePts f) l) (V w.2)|)) ∨
        ∃ y : Vec, row = ⟨some y.1, some y.2, []⟩ ∧ pdist y (P l) ≤ 2 * Real.sqrt 2 * D) := by
    intro w
    by_cases hw : w ∈ cmvPairs 45 V keys
    swap
    · exact ⟨⟨none, none, []⟩, fun h => absurd h hw⟩
    obtain ⟨k1, k2, -, hX⟩ := hpairs w hw
    obtain ⟨hV1, hV2⟩ := Predict.ne_of_cross hX
    have m1 := magnitude_pos hV1
    have m2 := magnitude_pos hV2
    have hsep := ((mem_pairs hk w).1 hw).2
    rw [separated_iff (by norm_num) (by norm_num)] at hsep
    obtain ⟨pos, full, e1, e2⟩ := all_near hs n (tablePts f) (by rw [hix]; exact hn) f.index hn tr P hmix (V w.1) (V w.2) hX l hl
      (τ w.1 l) (τ w.2 l) (data w.1 l) (data w.2 l) (by rw [hix]; exact hd _ k1 l hl) (by rw [hix]; exact hd _ k2 l hl)
      (D / magnitude (V w.1)) (D / magnitude (V w.2)) (by positivity) (by positivity)
      (by rw [hix]; intro j hj; rw [le_div_iff₀ m1]; exact hb _ k1 l hl j hj)
      (by rw [hix]; intro j hj; rw [le_div_iff₀ m2]; exact hb _ k2 l hl j hj)
    have q1 : normSq (V w.1) * (D / magnitude (V w.1)) = D * magnitude (V w.1) := by
      rw [show normSq (V w.1) = magnitude (V w.1) ^ 2 from (magnitude_sq _).symm]; field_simp
    have q2 : normSq (V w.2) * (D / magnitude (V w.2)) = D * magnitude (V w.2) := by
      rw [show normSq (V w.2) = magnitude (V w.2) ^ 2 from (magnitude_sq _).symm]; field_simp
    rw [q1, q2] at e2
    rcases e2 with ⟨rfl, e3⟩ | ⟨y, rfl, e3⟩
    · refine ⟨⟨none, none, []⟩, fun _ => ⟨by rw [e1]; rfl, Or.inl ⟨rfl, e3⟩⟩⟩
    · refine ⟨⟨some y.1, some y.2, []⟩, fun _ => ⟨by rw [e1]; rfl, Or.inr ⟨y, rfl, ?_⟩⟩⟩
      have c1 : D / magnitude (V w.1) * magnitude (V w.1) + D / magnitude (V w.2) * magnitude (V w.2) = 2 * D := by field_simp; ring
      rw [c1] at e3
      have hcross : magnitude (V w.1) * magnitude (V w.2) ≤ Real.sqrt 2 * |(V w.1).1 * (V w.2).2 - (V w.1).2 * (V w.2).1| := by
        have h45 : Real.cos (45 * Real.pi / 180) ^ 2 = 1 / 2 := by
          rw [show (45 : ℝ) * Real.pi / 180 = Real.pi / 4 by ring, Real.cos_pi_div_four, div_pow, Real.sq_sqrt (by norm_num)]; norm_num
        rw [h45] at hsep
        apply le_of_sq_le_sq _ (by positivity)
        rw [mul_pow, mul_pow, sq_abs, Real.sq_sqrt (by norm_num), magnitude_sq, magnitude_sq]
        nlinarith
      have hXp := abs_pos.2 hX
      have s2 : 0 < Real.sqrt 2 := by positivity
      refine le_of_mul_le_mul_left ?_ hXp
      calc _ ≤ 2 * D * (magnitude (V w.1) * magnitude (V w.2)) := e3
        _ ≤ 2 * D * (Real.sqrt 2 * |(V w.1).1 * (V w.2).2 - (V w.1).2 * (V w.2).1|) := by
            apply mul_le_mul_of_nonneg_left hcross (by positivity)
        _ = _ := by ring
  choose row hrow using hchoose
  have hpred : meanPredict sort "all" n (cmvPairs 45 V keys) data f l = .ok (meanRows ((cmvPairs 45 V keys).map row)) := by
    unfold meanPredict
    rw [mapM_ok_map (fun w hw => (hrow w hw).1)]
    rfl
  refine ⟨_, hpred, ?_⟩
  rcases meanRows_near ((cmvPairs 45 V keys).map row) (P l) (2 * Real.sqrt 2 * D) (by
    intro r hr
    obtain ⟨w, hw, rfl⟩ := List.mem_map.1 hr
    rcases (hrow w hw).2 with ⟨h, -⟩ | h
    · exact Or.inl h
    · exact Or.inr h) with ⟨h1, h2⟩ | ⟨y, h1, h2⟩
  · left
    rw [h2]
    refine ⟨by simp [PredRow.hasNaN], ?_⟩
    intro w hw
    rcases (hrow w hw).2 with ⟨-, h⟩ | ⟨y, h, -⟩
    · exact h
    · rw [h1 _ (List.mem_map_of_mem hw)] at h
      cases h
  · right
    rw [h1]
    exact ⟨by simp [PredRow.hasNaN], h2⟩

/-- C203: the complete procedure with inexact delays.  If no delay is off by more than `D` metres of cloud travel, the places of each
inverter are more than `4√2 D` apart, and every misplaced combiner is displaced by more than `D` along both motions of some
kept pair of windows, combiners mixed up within their inverters are all found, in at most two rounds. -/
theorem C203_noise (lsa : LSA) (hl : IsLSA lsa) (nan : ℝ) {sort : SortValues ι} (hs : IsSortValues sort) (n : ℤ)
    [DecidableEq κ] (keys : List κ) (hk : keys.Nodup) (V : κ → Vec) (τ : κ → ι → ι → ℝ) (data : κ → ι → CloudCase) (inv : ι → String)
    (f : Frame ι String ℝ) (hn : f.index.Nodup) (hcols : f.cols = ["E", "N"]) (hap : NamesApart inv f.index) (D : ℝ) (hD : 0 ≤ D)
    (hfar : ∀ k ∈ f.index, ∀ l ∈ f.index, inv k = inv l → k ≠ l →
      4 * Real.sqrt 2 * D < pdist (posOf (coords "E" "N" f) k) (posOf (coords "E" "N" f) l))
    (truth : List (ι × ι)) (ht : WithinInverters inv f.index truth) (P : ι → Vec)
    (hP : ∀ p ∈ truth, P p.1 = posOf (coords "E" "N" f) p.2)
    (hd : ∀ k ∈ keys, ∀ l ∈ f.index, MeasuredCase f.index (V k) (τ k l) (data k l))
    (hb : ∀ k ∈ keys, ∀ l ∈ f.index, ∀ j ∈ f.index, |τ k l j - planeDelay (P j) (P l) (V k)| * magnitude (V k) ≤ D)
    (hobl : ∀ p ∈ truth, p.1 ≠ p.2 → ∃ w ∈ cmvPairs 45 V keys,
      D * magnitude (V w.1) < |along (P p.1 - posOf (coords "E" "N" f) p.1) (V w.1)| ∧
      D * magnitude (V w.2) < |along (P p.1 - posOf (coords "E" "N" f) p.1) (V w.2)|) :
    ∃ st, procLoop lsa nan (meanPredict sort "all" n (cmvPairs 45 V keys) data) inv f 10 (procInit f) = .ok (some st) ∧
      st.remap.Perm truth ∧ (∀ l ∈ f.index, posOf (coords "E" "N" st.layout) l = P l) ∧ st.changed = [] ∧ st.layouts.length ≤ 3 := by
  have htm : ∀ l ∈ f.index, ∃ t, (l, t) ∈ truth ∧ t ∈ f.index := by
    intro l hl'
    obtain ⟨p, hp, rfl⟩ := List.mem_map.1 (ht.1.1.mem_iff.2 hl')
    exact ⟨p.2, hp, ht.1.2.mem_iff.1 (List.mem_map.2 ⟨p, hp, rfl⟩)⟩
  -- a prediction near its true place points to it
  have hnear : ∀ (x : Vec) (l : ι), l ∈ f.index → pdist x (P l) ≤ 2 * Real.sqrt 2 * D → ∀ t, (l, t) ∈ truth →
      ∀ k ∈ f.index, inv k = inv l → k ≠ t → pdist x (posOf (coords "E" "N" f) t) < pdist x (posOf (coords "E" "N" f) k) := by
    intro x l hl' hx t htt k hk' hik hkt
    have e := hP _ htt
    simp only at e
    rw [e] at hx
    have ht' : t ∈ f.index := ht.1.2.mem_iff.1 (List.mem_map.2 ⟨_, htt, rfl⟩)
    have h1 := hfar t ht' k hk' ((ht.2 _ htt).symm.trans hik.symm) (fun h => hkt h.symm)
    have h2 := pdist_triangle (posOf (coords "E" "N" f) t) x (posOf (coords "E" "N" f) k)
    rw [Field.pdist_comm (posOf (coords "E" "N" f) t) x] at h2
    linarith
  have hplan : PointsTo (meanPredict sort "all" n (cmvPairs 45 V keys) data) inv f truth (f.index.map fun l => (l, l)) := by
    rintro f' ⟨h1, -, h3⟩ l hl'
    have hpos : ∀ k ∈ f.index, posOf (tablePts f') k = posOf (coords "E" "N" f) k :=
      fun k hk' => h3 (k, k) (List.mem_map.2 ⟨k, hk', rfl⟩)
    have hmix : MixedUp (tablePts f') f'.index truth P := by
      refine ⟨by rw [tablePts_index]; exact fun _ h => h, by rw [h1]; exact ht.1, ?_, ?_⟩
      · intro p hp
        rw [hpos _ (ht.1.2.mem_iff.1 (List.mem_map.2 ⟨p, hp, rfl⟩)), hP p hp]
      · intro k hk1 hk2
        rw [tablePts_index] at hk1; exact absurd hk1 hk2
    obtain ⟨p, e1, e2⟩ := mean_prediction hs n keys hk V τ data D hD f' (by rw [h1]; exact hn) truth P hmix
      (by rw [h1]; exact hd) (by rw [h1]; exact hb) l (by rw [h1]; exact hl')
    refine ⟨p, e1, ?_, ?_⟩
    · intro hnan
      obtain ⟨t, ht1, -⟩ := htm l hl'
      rcases e2 with ⟨-, h⟩ | ⟨h, -⟩
      · by_cases hlt : l = t
        · subst hlt
          exact ⟨l, ht1, List.mem_map.2 ⟨l, hl', rfl⟩⟩
        · obtain ⟨w, hw, ho⟩ := hobl _ ht1 hlt
          have := h w hw
          rw [hpos l hl'] at this
          exact absurd ho this
      · rw [h] at hnan; cases hnan
    · intro hnan t ht1 k hk' hik hkt
      rcases e2 with ⟨h, -⟩ | ⟨-, h⟩
      · rw [h] at hnan; cases hnan
      · exact hnear _ l hl' h t ht1 k hk' hik hkt
  have htrue : ∀ r, r.Perm truth → PointsTo (meanPredict sort "all" n (cmvPairs 45 V keys) data) inv f truth r := by
    rintro r hr f' ⟨h1, -, h3⟩ l hl'
    have hmix : MixedUp (tablePts f') f'.index (f'.index.map fun l => (l, l)) P := by
      refine ⟨by rw [tablePts_index]; exact fun _ h => h, Reassign.bij_self _, ?_, ?_⟩
      · intro p hp
        obtain ⟨k, hk', rfl⟩ := List.mem_map.1 hp
        rw [h1] at hk'
        obtain ⟨t, ht1, -⟩ := htm k hk'
        have e := hP _ ht1
        simp only at e
        rw [e]
        exact (h3 _ (hr.mem_iff.2 ht1)).symm
      · intro k hk1 hk2
        rw [tablePts_index] at hk1; exact absurd hk1 hk2
    obtain ⟨p, e1, e2⟩ := mean_prediction hs n keys hk V τ data D hD f' (by rw [h1]; exact hn) _ P hmix
      (by rw [h1]; exact hd) (by rw [h1]; exact hb) l (by rw [h1]; exact hl')
    refine ⟨p, e1, ?_, ?_⟩
    · intro _
      obtain ⟨t, ht1, -⟩ := htm l hl'
      exact ⟨t, ht1, hr.mem_iff.2 ht1⟩
    · intro hnan t ht1 k hk' hik hkt
      rcases e2 with ⟨h, -⟩ | ⟨-, h⟩
      · rw [h] at hnan; cases hnan
      · exact hnear _ l hl' h t ht1 k hk' hik hkt
  obtain ⟨st, e1, e2, e3, e4, e5⟩ := C173_found lsa hl nan _ inv f hn hcols hap truth ht hplan htrue
  refine ⟨st, e1, e2, ?_, e4, e5⟩
  intro l hl'
  obtain ⟨t, ht1, -⟩ := htm l hl'
  have e := hP _ ht1
  simp only at e
  rw [e]
  exact e3.2.2 _ ht1

/-- Combiners 1 and 2 of the plan of the examples for C175 exchanged; the delays of combiners with odd numbers are 0.05 s too long, those
of the others 0.1 s too short. -/
example (lsa : LSA) (hl : IsLSA lsa) (sort : SortValues ℕ) (hs : IsSortValues sort) :
    ∃ (V : Bool → Vec) (data : Bool → ℕ → CloudCase) (st : ProcState ℕ),
      procLoop lsa 0 (meanPredict sort "all" 8 (cmvPairs 45 V [false, true]) data) inv4 plan4 10 (procInit plan4) = .ok (some st) ∧
      st.remap.Perm [(0, 0), (1, 2), (2, 1), (3, 3)] := by
  let V : Bool → Vec := fun k => if k then (1, 7) else (10, 0)
  let τ : Bool → ℕ → ℕ → ℝ := fun k l j => planeDelay (places4 j) (places4 l) (V k) + if j % 2 = 1 then 0.05 else -0.1
  let data : Bool → ℕ → CloudCase := fun k l => ⟨V k, [0, 1, 2, 3].map fun j => some (τ k l j), [none, none, none, none]⟩
  have hw := (C176_45_degrees V [false, true] (by decide) false true (by simp) (by simp) (by simp)).2 (by simp [V]; norm_num)
  have hm : ∀ k, magnitude (V k) ≤ 10 := by
    intro k
    unfold magnitude
    rw [Real.sqrt_le_left (by norm_num)]
    cases k <;> norm_num [V]
  have h0 : ∀ k, 0 ≤ magnitude (V k) := fun k => Real.sqrt_nonneg _
  have hs2 : Real.sqrt 2 < 3 / 2 := by
    rw [Real.sqrt_lt' (by norm_num)]; norm_num
  have hall : ∀ (p : ℕ × ℕ), p ∈ [(0, 0), (1, 2), (2, 1), (3, 3)] → p.1 ≠ p.2 → ∀ k : Bool,
      1 * magnitude (V k) < |along (places4 p.1 - posOf (coords "E" "N" plan4) p.1) (V k)| := by
    rw [plan4_coords]
    intro p hp hne k
    refine lt_of_le_of_lt (mul_le_mul_of_nonneg_left (hm k) (by norm_num)) ?_
    rw [lt_abs]
    simp only [List.mem_cons, List.not_mem_nil, or_false] at hp
    rcases hp with rfl | rfl | rfl | rfl
    · exact absurd rfl hne
    · cases k <;> norm_num [places4, posOf, along, V]
    · cases k <;> norm_num [places4, posOf, along, V]
    · exact absurd rfl hne
  obtain ⟨st, h1, h2, -⟩ := C203_noise lsa hl 0 hs 8 [false, true] (by decide) V τ data inv4 plan4
    (by rw [plan4_index]; decide) rfl apart4 1 (by norm_num) (by
      rw [plan4_coords, plan4_index]
      intro k hk l hl' _ hne
      refine lt_of_lt_of_le (b := 6) (by linarith) ?_
      unfold pdist
      apply Real.le_sqrt_of_sq_le
      simp only [List.mem_cons, List.not_mem_nil, or_false] at hk hl'
      rcases hk with rfl | rfl | rfl | rfl <;> rcases hl' with rfl | rfl | rfl | rfl <;> first | exact absurd rfl hne | norm_num [posOf])
    _ within4 places4 moved4 (fun k _ l _ => ⟨rfl, rfl, rfl⟩) (by
      intro k _ l _ j _
      have he : |τ k l j - planeDelay (places4 j) (places4 l) (V k)| ≤ 0.1 := by
        simp only [τ, add_sub_cancel_left]
        split <;> norm_num [abs_le]
      have := mul_le_mul he (hm k) (h0 k) (by norm_num)
      linarith) (by
      intro p hp hne
      rcases hw with h | h
      · exact ⟨_, h, hall p hp hne _, hall p hp hne _⟩
      · exact ⟨_, h, hall p hp hne _, hall p hp hne _⟩)
  exact ⟨V, data, st, h1, h2⟩

end

end SST.Props.RobustFull
