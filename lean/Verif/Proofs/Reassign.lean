import Verif.Proofs.Predict
import Verif.Proofs.Assign
import Verif.Model.Reassign
import Verif.Spec.Reassign

/-! # Proof infrastructure for the reassignment procedure -/

namespace SST.Field
open SST SST.Spec SST.Spatial

variable {ι : Type}

/-! ## Bijections as functions -/

theorem bij_perm_map [DecidableEq ι] {r : List (ι × ι)} {idx : List ι} (hn : idx.Nodup) (hb : IsBijection r idx) :
    r.Perm (idx.map fun i => (i, (lastTarget r i).getD i)) := by
  have hnd : (r.map Prod.fst).Nodup := hb.1.nodup_iff.2 hn
  have e : r = (r.map Prod.fst).map fun i => (i, (lastTarget r i).getD i) := by
    rw [List.map_map]
    conv_lhs => rw [← List.map_id r]
    apply List.map_congr_left
    intro p hp
    simp [lastTarget_of_mem hnd (show (p.1, p.2) ∈ r from hp)]
  conv_lhs => rw [e]
  exact hb.1.map _

theorem nearest_unique [DecidableEq ι] {d : ι → ι → ℝ} {idx : List ι} (hn : idx.Nodup) {truth remap : List (ι × ι)}
    (ht : IsBijection truth idx) (hb : IsBijection remap idx)
    (hnear : ∀ p ∈ truth, ∀ k ∈ idx, k ≠ p.2 → d p.1 p.2 < d p.1 k)
    (hle : (remap.map fun p => d p.1 p.2).sum ≤ (truth.map fun p => d p.1 p.2).sum) :
    ∀ p, p ∈ remap ↔ p ∈ truth := by
  have pt := bij_perm_map hn ht
  have pr := bij_perm_map hn hb
  set t : ι → ι := fun i => (lastTarget truth i).getD i with hT
  set g : ι → ι := fun i => (lastTarget remap i).getD i with hG
  rw [(pr.map _).sum_eq, (pt.map _).sum_eq, List.map_map, List.map_map] at hle
  have hg : ∀ i ∈ idx, g i ∈ idx := fun i hi =>
    hb.2.mem_iff.1 (List.mem_map.2 ⟨(i, g i), pr.mem_iff.2 (List.mem_map.2 ⟨i, hi, rfl⟩), rfl⟩)
  have htm : ∀ i ∈ idx, (i, t i) ∈ truth := fun i hi => pt.mem_iff.2 (List.mem_map.2 ⟨i, hi, rfl⟩)
  have hpt : ∀ i ∈ idx, d i (t i) ≤ d i (g i) := by
    intro i hi
    by_cases h : g i = t i
    · rw [h]
    · exact (hnear (i, t i) (htm i hi) (g i) (hg i hi) h).le
  have heq : ∀ i ∈ idx, g i = t i := by
    intro i hi
    by_contra h
    have := List.sum_lt_sum (l := idx) (fun i => d i (t i)) (fun i => d i (g i)) hpt
      ⟨i, hi, hnear (i, t i) (htm i hi) (g i) (hg i hi) h⟩
    simp only [Function.comp_def] at hle
    linarith
  intro p
  have hm : idx.map (fun i => (i, (lastTarget remap i).getD i)) = idx.map (fun i => (i, (lastTarget truth i).getD i)) :=
    List.map_congr_left (fun i hi => Prod.ext rfl (heq i hi))
  rw [pr.mem_iff, pt.mem_iff, hm]

theorem bij_filter [DecidableEq ι] {truth : List (ι × ι)} {idx known : List ι} (hn : idx.Nodup) (hk : known.Nodup)
    (hsub : ∀ k ∈ known, k ∈ idx) (ht : IsBijection truth idx) (hself : ∀ p ∈ truth, p.1 ∉ known → p.2 = p.1) :
    IsBijection (truth.filter fun p => p.1 ∈ known) known := by
  have hn1 : (truth.map Prod.fst).Nodup := ht.1.nodup_iff.2 hn
  have hn2 : (truth.map Prod.snd).Nodup := ht.2.nodup_iff.2 hn
  have h1 : ((truth.filter fun p => p.1 ∈ known).map Prod.fst).Perm known := by
    rw [List.perm_ext_iff_of_nodup ((List.filter_sublist.map _).nodup hn1) hk]
    intro a
    constructor
    · intro h
      obtain ⟨p, hp, rfl⟩ := List.mem_map.1 h
      simpa using (List.mem_filter.1 hp).2
    · intro h
      obtain ⟨p, hp, rfl⟩ := List.mem_map.1 (ht.1.mem_iff.2 (hsub a h))
      exact List.mem_map.2 ⟨p, List.mem_filter.2 ⟨hp, by simpa using h⟩, rfl⟩
  refine ⟨h1, ?_⟩
  have h2 : ((truth.filter fun p => p.1 ∈ known).map Prod.snd).Nodup := (List.filter_sublist.map _).nodup hn2
  apply (h2.subperm ?_).perm_of_length_le
  · have := h1.length_eq
    simp only [List.length_map] at this ⊢
    omega
  · intro k hk'
    obtain ⟨p, hp, rfl⟩ := List.mem_map.1 hk'
    obtain ⟨hp, hpk⟩ := List.mem_filter.1 hp
    by_contra hc
    obtain ⟨q, hq, hqk⟩ := List.mem_map.1 (ht.1.mem_iff.2 (ht.2.mem_iff.1 (List.mem_map_of_mem hp)))
    have hq2 := hself q hq (by rw [hqk]; exact hc)
    have : q = p := List.inj_on_of_nodup_map hn2 hq hp (by rw [hq2, hqk])
    rw [this] at hqk
    apply hc
    rw [← hqk]
    simpa using hpk

/-! ## One prediction -/

theorem exists_fn {α : Type} [DecidableEq ι] (labels : List ι) (hn : labels.Nodup) (l : List (Option α)) (hl : l.length = labels.length) :
    ∃ γ : ι → Option α, l = labels.map γ := by
  refine ⟨fun i => (l[labels.idxOf i]?).getD none, ?_⟩
  apply List.ext_getElem (by simpa using hl)
  intro i h1 h2
  rw [List.getElem_map, hn.idxOf_getElem i, List.getElem?_eq_getElem h1]
  rfl

theorem exactCase_eq [DecidableEq ι] {pts : List (ι × Vec)} (hn : (pts.map Prod.fst).Nodup) {P : ι → Vec} {V : Vec} {ref : ι}
    {c : CloudCase} (h : ExactCase (pts.map Prod.fst) P V ref c) :
    ∃ γ : ι → Option ℝ, c = ⟨V, pts.map fun p => some (planeDelay (P p.1) (P ref) V), pts.map fun p => γ p.1⟩ := by
  obtain ⟨v, d, co⟩ := c
  obtain ⟨rfl, h2, h3⟩ := h
  simp only at h2 h3
  obtain ⟨γ, rfl⟩ := exists_fn _ hn co h3
  refine ⟨γ, ?_⟩
  subst h2
  simp [Function.comp_def]

theorem mem_pySlice {α : Type} {l : List α} {a b : ℤ} {x : α} (h : x ∈ pySlice l a b) : x ∈ l :=
  List.mem_of_mem_take (List.mem_of_mem_drop h)

theorem downselect_ok [DecidableEq ι] {sort : SortValues ι} (hs : IsSortValues sort) (mode : String)
    (hm : mode ∈ ["coherence", "preavg", "global_coherence", "distance", "all"]) (n : ℤ) (pts : List (ι × Vec)) (r : Vec) (F1 F2 : ι → PosRow) :
    ∃ ix1 ix2, downselect sort mode n pts r ((pts.map Prod.fst).map fun l => (l, F1 l)) ((pts.map Prod.fst).map fun l => (l, F2 l)) =
        .ok (ix1, ix2) ∧ (∀ l ∈ ix1, l ∈ pts.map Prod.fst) ∧ (∀ l ∈ ix2, l ∈ pts.map Prod.fst) ∧
      (mode ∉ ["coherence", "preavg"] → ix1 = ix2) ∧ (mode = "all" → ix1 = pts.map Prod.fst) := by
  have key : ∀ (l : List (ι × Option ℝ)) (a b : ℤ), ∀ x ∈ (pySlice (sort l) a b).map Prod.fst, x ∈ l.map Prod.fst := by
    intro l a b x hx
    obtain ⟨p, hp, rfl⟩ := List.mem_map.1 hx
    exact List.mem_map_of_mem ((hs l).1.mem_iff.1 (mem_pySlice hp))
  have kc : ∀ F : ι → PosRow, ∀ x ∈ selectCoherence sort n ((pts.map Prod.fst).map fun l => (l, F l)), x ∈ pts.map Prod.fst := by
    intro F x hx
    rw [selectCoherence_eq] at hx
    have := key _ _ _ x hx
    rw [List.map_map] at this
    simp only [Function.comp_def, List.map_id'] at this
    exact (List.mem_filter.1 this).1
  unfold downselect
  by_cases h1 : mode = "coherence" ∨ mode = "preavg"
  · rw [if_pos h1]
    refine ⟨_, _, rfl, kc F1, kc F2, ?_, ?_⟩
    · intro h; exact absurd (by simpa using h1) h
    · rintro rfl; simp at h1
  rw [if_neg h1]
  by_cases h2 : mode = "global_coherence"
  · rw [if_pos h2]
    have : ∀ x ∈ (pySlice (sort (globalCoh ((pts.map Prod.fst).map fun l => (l, F1 l)) ((pts.map Prod.fst).map fun l => (l, F2 l)))) (-n) (-1)).map Prod.fst,
        x ∈ pts.map Prod.fst := by
      intro x hx
      have := key _ _ _ x hx
      simpa [globalCoh, List.zipWith_map, List.zipWith_self, Function.comp_def] using this
    exact ⟨_, _, rfl, this, this, fun _ => rfl, by rintro rfl; simp at h2⟩
  rw [if_neg h2]
  by_cases h3 : mode = "distance"
  · rw [if_pos h3]
    have : ∀ x ∈ (pySlice (sort (pts.map fun p => (p.1, some (magnitude (p.2.1 - r.1, p.2.2 - r.2))))) 0 n).map Prod.fst,
        x ∈ pts.map Prod.fst := by
      intro x hx
      have := key _ _ _ x hx
      simpa [Function.comp_def] using this
    exact ⟨_, _, rfl, this, this, fun _ => rfl, by rintro rfl; simp at h3⟩
  rw [if_neg h3]
  have h4 : mode = "all" := by
    simp only [List.mem_cons, List.not_mem_nil, or_false] at hm
    tauto
  rw [if_pos h4]
  exact ⟨_, _, rfl, fun _ h => h, fun _ h => h, fun _ => rfl, fun _ => rfl⟩

theorem disp_error (r V x p q : Vec) (hV : V ≠ 0) (γ : Option ℝ) :
    (siteRow r V (some (planeDelay q p V)) γ x).errorDist =
      some (along (p - r) V / magnitude V - along (q - x) V / magnitude V) := by
  have hm := magnitude_pos hV
  have hs := magnitude_sq V
  simp only [siteRow, planeDelay, along, Option.map_some, Option.some.injEq, ← hs, Prod.fst_sub, Prod.snd_sub]
  field_simp
  ring

theorem disp_mean (P R : ι → Vec) (r V p : Vec) (hV : V ≠ 0) (γ : ι → Option ℝ) (ix : List ι) (hne : ix ≠ []) :
    meanO (ix.filterMap fun l => (siteRow r V (some (planeDelay (P l) p V)) (γ l) (R l)).errorDist) =
      some (along (p - r - meanDisp P R ix) V / magnitude V) := by
  have hm := magnitude_pos hV
  simp only [disp_error r V _ p _ hV]
  rw [show (fun l => some (along (p - r) V / magnitude V - along (P l - R l) V / magnitude V)) =
    some ∘ fun l => (along (p - r) V / magnitude V - along (P l - R l) V / magnitude V) from rfl, List.filterMap_eq_map]
  unfold meanO mean
  have hl : (ix.length : ℝ) ≠ 0 := by simpa using hne
  have hs : ∀ l : List ι, (l.map fun l => along (p - r) V / magnitude V - along (P l - R l) V / magnitude V).sum =
      l.length * (along (p - r) V / magnitude V) - ((l.map fun l => (P l).1 - (R l).1).sum * V.1 +
        (l.map fun l => (P l).2 - (R l).2).sum * V.2) / magnitude V := by
    intro l
    induction l with
    | nil => simp
    | cons a l ih =>
      rw [List.map_cons, List.sum_cons, ih]
      simp only [List.map_cons, List.sum_cons, List.length_cons, along, Nat.cast_add, Nat.cast_one, Prod.fst_sub, Prod.snd_sub]
      ring
  rw [if_neg (by simpa using hne), hs, List.length_map]
  congr 1
  simp only [meanDisp, along, Prod.fst_sub, Prod.snd_sub]
  field_simp
  ring

end SST.Field
