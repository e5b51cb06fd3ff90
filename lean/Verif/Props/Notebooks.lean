import Verif.Model.Notebooks
import Verif.Props.Predict

/-!
# Properties C211 and C212: the notebooks

Specifications: `Spec/Predict.lean` (plane-wave delays, sorting).
-/

namespace SST.Props.Notebooks
open SST SST.Field SST.Spec SST.Spatial SST.Notebooks SST.Props.Predict

variable {ι : Type} [DecidableEq ι]

/-! ## C211 -/

omit [DecidableEq ι] in
/-- C211 (the part that holds): if everything digitized is a combiner, every name is listed with the centroid of its own outline, in the
order of the file.
Full claim: for every file, for the combiners in it. -/
theorem C211_combiners_partial (data : List (Asset ι)) (h : ∀ a ∈ data, a.kind = "combiner") :
    dataCentroids data = .ok (data.map fun a => (a.name, a.centroid)) := by
  have e : (data.filter fun a => a.kind = "combiner") = data := List.filter_eq_self.2 (by simpa using h)
  unfold dataCentroids
  rw [e, if_pos (by simp), List.zip_map']

example : ∀ a ∈ [Asset.mk "CMB-1" "combiner" (0, 0), Asset.mk "CMB-2" "combiner" (10, 5)], a.kind = "combiner" := by simp

omit [DecidableEq ι] in
/-- C211 is violated: as soon as one outline is not that of a combiner, the export fails. -/
theorem C211_violated (data : List (Asset ι)) (a : Asset ι) (ha : a ∈ data) (hk : a.kind ≠ "combiner") :
    Raises (dataCentroids data) .valueError := by
  have hl : (data.filter fun a => a.kind = "combiner").length < data.length := by
    refine List.length_filter_lt_length_iff_exists.2 ⟨a, ha, by simpa using hk⟩
  unfold Raises dataCentroids
  rw [if_neg (by simpa using hl.ne)]

example : (Asset.mk "MET-1" "met_station" ((3, 4) : Vec)) ∈ [Asset.mk "CMB-1" "combiner" (0, 0), Asset.mk "MET-1" "met_station" (3, 4)] ∧
    (Asset.mk "MET-1" "met_station" ((3, 4) : Vec)).kind ≠ "combiner" := by
  refine ⟨by simp, by decide +kernel⟩

/-! ## C212 -/

private theorem nb_position (ea eb : Option ℝ) (V1 V2 rv : Vec) (h1 : V1 ≠ 0) (h2 : V2 ≠ 0) :
    nbIntersect (ea.bind fun a => (unit V1).map fun u => (a * u.1, a * u.2)) (eb.bind fun a => (unit V2).map fun u => (a * u.1, a * u.2)) rv =
      positionFrom ea eb V1 V2 rv := by
  have u1 : unit V1 = some (V1.1 / magnitude V1, V1.2 / magnitude V1) := by rw [unit, if_neg (magnitude_pos h1).ne']
  have u2 : unit V2 = some (V2.1 / magnitude V2, V2.2 / magnitude V2) := by rw [unit, if_neg (magnitude_pos h2).ne']
  rw [u1, u2]
  cases ea <;> cases eb <;> simp only [Option.bind_some, Option.bind_none, Option.map_some, nbIntersect, positionFrom, pol2rect_arg _ _ h1,
    pol2rect_arg _ _ h2, computeIntersection, List.zipWith_cons_cons, List.headD_cons]

omit [DecidableEq ι] in
private theorem nb_select (sort : SortValues ι) (n : ℤ) (d : List (ι × PosRow)) (h : ∀ r ∈ d, r.2.coh ≠ none) :
    nbSelect sort n d = selectCoherence sort n d := by
  unfold nbSelect selectCoherence
  rw [List.filter_eq_self.2]
  intro r hr
  obtain ⟨q, hq, rfl⟩ := List.mem_map.1 hr
  exact Option.isSome_iff_ne_none.2 (h q hq)

private theorem nb_eval (sort : SortValues ι) (pts : List (ι × Vec)) (hn : (pts.map Prod.fst).Nodup) (ne : Bool) (ref : ι) (r : Vec)
    (hr : (ref, r) ∈ pts) (n : ℤ) (V1 V2 : Vec) (hV1 : V1 ≠ 0) (hV2 : V2 ≠ 0) (τ1 γ1 τ2 γ2 : ι → Option ℝ) (ix1 ix2 : List ι)
    (e1 : nbSelect sort n ((pts.map Prod.fst).map fun l => (l, siteRow r V1 (τ1 l) (γ1 l) (posOf pts l))) = ix1)
    (e2 : nbSelect sort n ((pts.map Prod.fst).map fun l => (l, siteRow r V2 (τ2 l) (γ2 l) (posOf pts l))) = ix2)
    (h1 : ∀ l ∈ ix1, l ∈ pts.map Prod.fst) (h2 : ∀ l ∈ ix2, l ∈ pts.map Prod.fst) :
    nbPosition sort pts ne ref n (case pts V1 τ1 γ1) (case pts V2 τ2 γ2) =
      .ok (positionFrom (meanO (ix1.filterMap fun l => (siteRow r V1 (τ1 l) (γ1 l) (posOf pts l)).errorDist))
        (meanO (ix2.filterMap fun l => (siteRow r V2 (τ2 l) (γ2 l) (posOf pts l)).errorDist)) V1 V2 (if ne then (r.2, r.1) else r)) := by
  unfold nbPosition case
  rw [dictGet?_of_mem hn hr]
  simp only [posData_label pts hn r V1 hV1, posData_label pts hn r V2 hV2, e1, e2, nbError]
  rw [nb_position _ _ _ _ _ hV1 hV2, locRows_eq _ hn (fun l => siteRow r V1 (τ1 l) (γ1 l) (posOf pts l)) ix1 h1,
    locRows_eq _ hn (fun l => siteRow r V2 (τ2 l) (γ2 l) (posOf pts l)) ix2 h2]
  simp only [meanError, List.filterMap_map, Function.comp_def]

omit [DecidableEq ι] in
private theorem select_mem {sort : SortValues ι} (hs : IsSortValues sort) (labs : List ι) (hn : labs.Nodup) (n : ℤ) (h1 : 1 ≤ n) (F : ι → PosRow) :
    ∀ l ∈ nbSelect sort n (labs.map fun l => (l, F l)), l ∈ labs := by
  have hb := bestButTop hs labs hn (fun l => (F l).coh) n h1
  unfold nbSelect
  rw [List.map_map]
  exact hb.2.1

/-- C212 (the part that holds): if all coherences are numbers and the cloud vectors are not zero, the notebook's steps give the position
`compute_predicted_position` predicts in mode 'preavg' with the same `ndownsel`.
Full claim: without the assumption on the coherences. -/
theorem C212_agrees_partial {sort : SortValues ι} (hs : IsSortValues sort) (pts : List (ι × Vec)) (hn : (pts.map Prod.fst).Nodup) (ne : Bool)
    (ref : ι) (r : Vec) (hr : (ref, r) ∈ pts) (n : ℤ) (h1 : 1 ≤ n) (V1 V2 : Vec) (hV1 : V1 ≠ 0) (hV2 : V2 ≠ 0) (τ1 γ1 τ2 γ2 : ι → Option ℝ)
    (hg : ∀ q ∈ pts, γ1 q.1 ≠ none ∧ γ2 q.1 ≠ none) :
    ∃ pos full, nbPosition sort pts ne ref n (case pts V1 τ1 γ1) (case pts V2 τ2 γ2) = .ok pos ∧
      predictedPosition sort pts ne ref "preavg" n (case pts V1 τ1 γ1) (case pts V2 τ2 γ2) = .ok (pos, full) := by
  have s1 := nb_select sort n ((pts.map Prod.fst).map fun l => (l, siteRow r V1 (τ1 l) (γ1 l) (posOf pts l))) (by
    simp only [List.mem_map]
    rintro _ ⟨_, ⟨q, hq, rfl⟩, rfl⟩
    exact (hg q hq).1)
  have s2 := nb_select sort n ((pts.map Prod.fst).map fun l => (l, siteRow r V2 (τ2 l) (γ2 l) (posOf pts l))) (by
    simp only [List.mem_map]
    rintro _ ⟨_, ⟨q, hq, rfl⟩, rfl⟩
    exact (hg q hq).2)
  have m1 := select_mem hs (pts.map Prod.fst) hn n h1 (fun l => siteRow r V1 (τ1 l) (γ1 l) (posOf pts l))
  have m2 := select_mem hs (pts.map Prod.fst) hn n h1 (fun l => siteRow r V2 (τ2 l) (γ2 l) (posOf pts l))
  have hp := predict_eval sort pts hn ne ref r hr "preavg" n V1 V2 hV1 hV2 τ1 γ1 τ2 γ2 _ _
    (by simp only [downselect, or_true, if_true, s1, s2]) m1 m2
  exact ⟨_, _, nb_eval sort pts hn ne ref r hr n V1 V2 hV1 hV2 τ1 γ1 τ2 γ2 _ _ rfl rfl m1 m2, hp⟩

example : ∃ (sort : SortValues ℕ) (pts : List (ℕ × Vec)), IsSortValues sort ∧ (pts.map Prod.fst).Nodup ∧ (1, ((10 : ℝ), (0 : ℝ))) ∈ pts ∧
    ∀ q ∈ pts, (some (1 / (q.1 + 1 : ℝ)) : Option ℝ) ≠ none :=
  let ⟨sort, h⟩ := exists_sort
  ⟨sort, [(0, (0, 0)), (1, (10, 0)), (2, (0, 10))], h, by simp, by simp, by simp⟩

/-- With one site without coherence the notebook's selection contains the reference. -/
private theorem nb_keeps_ref {sort : SortValues ι} (hs : IsSortValues sort) (labs : List ι) (hn : labs.Nodup) (n : ℤ) (h2 : 2 ≤ n) (F : ι → PosRow)
    (hlen : n.toNat ≤ labs.length) (z : ι) (hz : z ∈ labs) (hzn : (F z).coh = none) (hfin : ∀ l ∈ labs, l ≠ z → (F l).coh ≠ none) (ref : ι)
    (hr : ref ∈ labs) (g : ℝ) (hg : (F ref).coh = some g) (hbest : ∀ l ∈ labs, l ≠ ref → ∀ c, (F l).coh = some c → c < g) :
    ∃ T, nbSelect sort n (labs.map fun l => (l, F l)) = T ∧ T.Nodup ∧ T.length = n.toNat - 1 ∧ ref ∈ T ∧ ∀ l ∈ T, l ∈ labs ∧ l ≠ z := by
  obtain ⟨K, hK, hKs, hKp⟩ := sort_keys hs labs (fun l => (F l).coh)
  have hKne : K ≠ [] := by
    rintro rfl
    exact absurd (hK.mem_iff.2 hz) (by simp)
  obtain ⟨R, T, x, e1, e2, e3⟩ := topSlice K hKne n (by omega)
  have hKn : K.Nodup := hK.nodup_iff.2 hn
  have hmem : ∀ l, l ∈ labs ↔ l ∈ R ++ T ++ [x] := fun l => by rw [← e1]; exact hK.mem_iff.symm
  rw [e1] at hKn hKp
  rw [List.nodup_append, List.nodup_append] at hKn
  rw [List.pairwise_append, List.pairwise_append] at hKp
  obtain ⟨⟨pR, pT, pRT⟩, -, pX⟩ := hKp
  have hxz : x = z := by
    by_contra hne
    have hx : (F x).coh ≠ none := hfin x ((hmem x).2 (by simp)) hne
    have hz' : z ∈ R ++ T := by
      have := (hmem z).1 hz
      rw [List.mem_append] at this
      exact this.resolve_right fun h => hne (List.mem_singleton.1 h).symm
    have := pX z hz' x (by simp)
    rw [hzn] at this
    cases hc : (F x).coh with
    | none => exact hx hc
    | some c => rw [hc] at this; exact this
  subst hxz
  have hTx : ∀ l ∈ T, l ≠ x := fun l hl h => hKn.2.2 l (by simp [hl]) x (by simp) h
  have hTl : ∀ l ∈ T, l ∈ labs := fun l hl => (hmem l).2 (by simp [hl])
  have hlT : T.length = n.toNat - 1 := by
    rw [e3, hK.length_eq]; omega
  refine ⟨T, ?_, hKn.1.2.1, hlT, ?_, fun l hl => ⟨hTl l hl, hTx l hl⟩⟩
  · unfold nbSelect
    rw [List.map_map]
    show (pySlice (sort (labs.map fun l => (l, (F l).coh))) (-n) (-1)).map Prod.fst = T
    rw [hKs, map_pySlice, List.map_map, ← e2]
    simp [Function.comp_def]
  · by_contra hrT
    have hrx : ref ≠ x := by rintro rfl; rw [hzn] at hg; cases hg
    have hrR : ref ∈ R := by
      have := (hmem ref).1 hr
      simp only [List.mem_append, List.mem_singleton] at this
      tauto
    obtain ⟨t, ht⟩ := List.exists_mem_of_ne_nil T (by rintro rfl; simp at hlT; omega)
    have h := pRT ref hrR t ht
    have htr : t ≠ ref := by rintro rfl; exact hrT ht
    cases hc : (F t).coh with
    | none => exact hfin t (hTl t ht) (hTx t ht) hc
    | some c =>
      rw [hg, hc] at h
      have := hbest t (hTl t ht) htr c hc
      simp only [nanLE] at h
      linarith

omit [DecidableEq ι] in
private theorem sum_one_zero {f : ι → Option ℝ} (T : List ι) (hT : T.Nodup) (ref : ι) (hr : ref ∈ T) (e : ℝ) (h0 : f ref = some 0)
    (he : ∀ l ∈ T, l ≠ ref → f l = some e) : (T.filterMap f).sum = (T.length - 1 : ℝ) * e ∧ (T.filterMap f).length = T.length := by
  obtain ⟨A, B, rfl⟩ := List.append_of_mem hr
  have hc : ∀ L : List ι, (∀ l ∈ L, f l = some e) → L.filterMap f = List.replicate L.length e := by
    intro L hL
    induction L with
    | nil => rfl
    | cons a L ih => rw [List.filterMap_cons, hL a (by simp), ih fun l hl => hL l (by simp [hl])]; rfl
  rw [List.nodup_append] at hT
  have hA : ∀ l ∈ A, f l = some e := fun l hl => he l (by simp [hl]) fun h => hT.2.2 l hl ref (by simp) h
  have hB : ∀ l ∈ B, f l = some e := fun l hl => he l (by simp [hl]) fun h => (List.nodup_cons.1 hT.2.1).1 (h ▸ hl)
  rw [List.filterMap_append, List.filterMap_cons, h0, hc A hA, hc B hB]
  constructor
  · simp
    ring
  · simp

/-- C212 is violated: let all delays be exact for the true position `p`, the reference have delay 0 with itself and the best coherence,
and let one site have no coherence (its record is constant, say).  `compute_predicted_position` finds `p`; the notebook averages in
the error 0 of the reference itself and finds a point short of `p`, at the fraction `(n-2)/(n-1)` of the way. -/
theorem C212_violated_missing {sort : SortValues ι} (hs : IsSortValues sort) (pts : List (ι × Vec)) (hn : (pts.map Prod.fst).Nodup) (ref : ι)
    (r p : Vec) (hr : (ref, r) ∈ pts) (V1 V2 : Vec) (τ1 γ1 τ2 γ2 : ι → Option ℝ) (n : ℤ) (h3 : 3 ≤ n) (hlen : n.toNat ≤ pts.length)
    (hX : V1.1 * V2.2 - V1.2 * V2.1 ≠ 0)
    (hw1 : ∀ q ∈ pts, q.1 ≠ ref → τ1 q.1 = some (planeDelay q.2 p V1)) (h01 : τ1 ref = some 0)
    (hw2 : ∀ q ∈ pts, q.1 ≠ ref → τ2 q.1 = some (planeDelay q.2 p V2)) (h02 : τ2 ref = some 0)
    (g1 g2 : ℝ) (hg1 : γ1 ref = some g1) (hg2 : γ2 ref = some g2)
    (hb1 : ∀ q ∈ pts, q.1 ≠ ref → ∀ c, γ1 q.1 = some c → c < g1) (hb2 : ∀ q ∈ pts, q.1 ≠ ref → ∀ c, γ2 q.1 = some c → c < g2)
    (z : ι) (hz : z ∈ pts.map Prod.fst) (hz1 : γ1 z = none) (hz2 : γ2 z = none)
    (hf1 : ∀ q ∈ pts, q.1 ≠ z → γ1 q.1 ≠ none) (hf2 : ∀ q ∈ pts, q.1 ≠ z → γ2 q.1 ≠ none)
    (hd1 : (p.1 - r.1) * V1.1 + (p.2 - r.2) * V1.2 ≠ 0) (hd2 : (p.1 - r.1) * V2.1 + (p.2 - r.2) * V2.2 ≠ 0) :
    (∃ full, predictedPosition sort pts false ref "preavg" n (case pts V1 τ1 γ1) (case pts V2 τ2 γ2) = .ok ((.fin p.1, .fin p.2), full)) ∧
    nbPosition sort pts false ref n (case pts V1 τ1 γ1) (case pts V2 τ2 γ2) =
      .ok (.fin (((n : ℝ) - 2) / (n - 1) * (p.1 - r.1) + r.1), .fin (((n : ℝ) - 2) / (n - 1) * (p.2 - r.2) + r.2)) := by
  obtain ⟨hV1, hV2⟩ := ne_of_cross hX
  have m1 := magnitude_pos hV1
  have m2 := magnitude_pos hV2
  have hrl : ref ∈ pts.map Prod.fst := List.mem_map.2 ⟨_, hr, rfl⟩
  have hrz : ref ≠ z := by rintro rfl; rw [hz1] at hg1; cases hg1
  have hnR : (3 : ℝ) ≤ n := by exact_mod_cast h3
  have hnn : ((n.toNat - 1 : ℕ) : ℝ) = n - 1 := by
    have : ((n.toNat - 1 : ℕ) : ℤ) = n - 1 := by omega
    have := congrArg (fun k : ℤ => (k : ℝ)) this
    push_cast at this
    exact this
  have key : ∀ (V : Vec) (τ γ : ι → Option ℝ) (g : ℝ), V ≠ 0 → (∀ q ∈ pts, q.1 ≠ ref → τ q.1 = some (planeDelay q.2 p V)) → τ ref = some 0 →
      γ ref = some g → (∀ q ∈ pts, q.1 ≠ ref → ∀ c, γ q.1 = some c → c < g) → γ z = none → (∀ q ∈ pts, q.1 ≠ z → γ q.1 ≠ none) →
      ∃ T, nbSelect sort n ((pts.map Prod.fst).map fun l => (l, siteRow r V (τ l) (γ l) (posOf pts l))) = T ∧ (∀ l ∈ T, l ∈ pts.map Prod.fst) ∧
        meanO (T.filterMap fun l => (siteRow r V (τ l) (γ l) (posOf pts l)).errorDist) =
          some (((n : ℝ) - 2) / (n - 1) * (((p.1 - r.1) * V.1 + (p.2 - r.2) * V.2) / magnitude V)) := by
    intro V τ γ g hV hw h0 hg hb hzn hf
    obtain ⟨T, e, hT, hTl, hrT, hTm⟩ := nb_keeps_ref hs (pts.map Prod.fst) hn n (by omega) (fun l => siteRow r V (τ l) (γ l) (posOf pts l))
      (by simpa using hlen) z hz hzn (by
        intro l hl hne
        obtain ⟨q, hq, rfl⟩ := List.mem_map.1 hl
        exact hf q hq hne) ref hrl g hg (by
        intro l hl hne
        obtain ⟨q, hq, rfl⟩ := List.mem_map.1 hl
        exact hb q hq hne)
    refine ⟨T, e, fun l hl => (hTm l hl).1, ?_⟩
    obtain ⟨hsum, hcount⟩ := sum_one_zero (f := fun l => (siteRow r V (τ l) (γ l) (posOf pts l)).errorDist) T hT ref hrT
      (((p.1 - r.1) * V.1 + (p.2 - r.2) * V.2) / magnitude V) (by
        rw [h0, posOf_mem hn hr]
        simp [siteRow]) (by
        intro l hl hne
        obtain ⟨q, hq, rfl⟩ := List.mem_map.1 (hTm l hl).1
        rw [hw q hq hne, posOf_mem hn hq]
        exact planeWave_error r V p q.2 hV _)
    have hne : (T.filterMap fun l => (siteRow r V (τ l) (γ l) (posOf pts l)).errorDist) ≠ [] := by
      intro h
      rw [h] at hcount
      simp at hcount
      omega
    unfold meanO mean
    rw [if_neg hne, hsum, hcount, hTl, hnn]
    congr 1
    have : (n : ℝ) - 1 ≠ 0 := by linarith
    field_simp
    ring
  constructor
  · have hq : ∃ q ∈ pts, q.1 ≠ ref ∧ q.1 ≠ z := by
      by_contra hc
      push Not at hc
      have hsub : (pts.map Prod.fst) ⊆ [ref, z] := by
        intro l hl
        obtain ⟨q, hq, rfl⟩ := List.mem_map.1 hl
        by_cases h : q.1 = ref
        · simp [h]
        · simp [hc q hq h]
      have := (hn.subperm hsub).length_le
      simp at this
      omega
    obtain ⟨q, hq, h1, h2⟩ := hq
    obtain ⟨full, h⟩ := C22_coherence_exact hs pts hn ref r p hr V1 V2 τ1 γ1 τ2 γ2 n (by omega) hX hw1 hw2 g1 g2 hg1 hg2 hb1 hb2
      ⟨q, hq, h1, hf1 q hq h2⟩ ⟨q, hq, h1, hf2 q hq h2⟩ hd1 hd2
    refine ⟨full, ?_⟩
    rw [← h]
    simp only [predictedPosition, downselect, or_true, true_or, if_true]
  · obtain ⟨T1, a1, a2, a3⟩ := key V1 τ1 γ1 g1 hV1 hw1 h01 hg1 hb1 hz1 hf1
    obtain ⟨T2, b1, b2, b3⟩ := key V2 τ2 γ2 g2 hV2 hw2 h02 hg2 hb2 hz2 hf2
    rw [nb_eval sort pts hn false ref r hr n V1 V2 hV1 hV2 τ1 γ1 τ2 γ2 T1 T2 a1 b1 a2 b2, a3, b3]
    have hk : ((n : ℝ) - 2) / (n - 1) ≠ 0 := div_ne_zero (by linarith) (by linarith)
    rw [position_solves V1 V2 (((n : ℝ) - 2) / (n - 1) * (p.1 - r.1), ((n : ℝ) - 2) / (n - 1) * (p.2 - r.2)) _ hX _ _
      (by rw [mul_assoc, div_mul_cancel₀ _ m1.ne']; ring) (by rw [mul_assoc, div_mul_cancel₀ _ m2.ne']; ring)
      (mul_ne_zero hk (div_ne_zero hd1 m1.ne')) (mul_ne_zero hk (div_ne_zero hd2 m2.ne'))]
    simp

/-- Three sites, of which the first is at (1, 1) instead of (0, 0) and the third has no coherence. -/
example (sort : SortValues ℕ) (hs : IsSortValues sort) :
    let pts : List (ℕ × Vec) := [(0, (0, 0)), (1, (10, 0)), (2, (0, 10))]
    let τ : Vec → ℕ → Option ℝ := fun V l => if l = 0 then some 0 else some (planeDelay (posOf pts l) (1, 1) V)
    let γ : ℕ → Option ℝ := fun l => if l = 0 then some 1 else if l = 1 then some (1 / 2) else none
    nbPosition sort pts false 0 3 (case pts (1, 0) (τ (1, 0)) γ) (case pts (0, 1) (τ (0, 1)) γ) =
      .ok (.fin (((3 : ℤ) - 2 : ℝ) / ((3 : ℤ) - 1) * (1 - 0) + 0), .fin (((3 : ℤ) - 2 : ℝ) / ((3 : ℤ) - 1) * (1 - 0) + 0)) := by
  intro pts τ γ
  have hn : (pts.map Prod.fst).Nodup := by simp [pts]
  have hw : ∀ V, ∀ q ∈ pts, q.1 ≠ 0 → τ V q.1 = some (planeDelay q.2 (1, 1) V) := by
    intro V q hq h0
    simp only [τ, if_neg h0, posOf_mem hn hq]
  have hb : ∀ q ∈ pts, q.1 ≠ 0 → ∀ c, γ q.1 = some c → c < 1 := by
    intro q hq h0 c
    simp only [γ, if_neg h0]
    split_ifs
    · intro h
      have := Option.some.inj h
      rw [← this]; norm_num
    · intro h; cases h
  have hf : ∀ q ∈ pts, q.1 ≠ 2 → γ q.1 ≠ none := by
    intro q hq h0
    simp only [pts, List.mem_cons, List.not_mem_nil, or_false] at hq
    rcases hq with rfl | rfl | rfl <;> simp [γ] at h0 ⊢
  exact (C212_violated_missing hs pts hn 0 (0, 0) (1, 1) (by simp [pts]) (1, 0) (0, 1) (τ (1, 0)) γ (τ (0, 1)) γ 3 (by norm_num) (by simp [pts])
    (by norm_num) (hw _) (by simp [τ]) (hw _) (by simp [τ]) 1 1 (by simp [γ]) (by simp [γ]) hb hb 2 (by simp [pts]) (by simp [γ]) (by simp [γ])
    hf hf (by norm_num) (by norm_num)).2

end SST.Props.Notebooks
