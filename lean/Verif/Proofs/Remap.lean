import Verif.Model.Field
import Verif.Spec.Remap

/-! Helper lemmas about dictionaries, tables and `remapPositions`. -/

namespace SST
variable {ι κ α ν : Type} [DecidableEq ι] [DecidableEq κ]

section dict

theorem dictGet?_eq_none {d : List (ι × ν)} {k : ι} : dictGet? d k = none ↔ k ∉ d.map Prod.fst := by
  simp only [dictGet?, Option.map_eq_none_iff, List.find?_eq_none, decide_eq_true_eq, List.mem_map,
    not_exists, not_and]

theorem dictGet?_isSome {d : List (ι × ν)} {k : ι} (h : k ∈ d.map Prod.fst) :
    ∃ v, dictGet? d k = some v := by
  cases hd : dictGet? d k with
  | none => exact absurd h (dictGet?_eq_none.1 hd)
  | some v => exact ⟨v, rfl⟩

theorem dictGet?_mem {d : List (ι × ν)} {k : ι} {v : ν} (h : dictGet? d k = some v) : (k, v) ∈ d := by
  simp only [dictGet?, Option.map_eq_some_iff] at h
  obtain ⟨p, hp, rfl⟩ := h
  have h1 := List.find?_some hp
  have h2 := List.mem_of_find?_eq_some hp
  simp at h1
  subst h1; exact h2

theorem dictGet?_of_mem {d : List (ι × ν)} {k : ι} {v : ν} (hn : (d.map Prod.fst).Nodup)
    (h : (k, v) ∈ d) : dictGet? d k = some v := by
  induction d with
  | nil => simp at h
  | cons p d ih =>
    simp only [List.map_cons, List.nodup_cons] at hn
    rcases List.mem_cons.1 h with rfl | h
    · simp [dictGet?]
    · have : p.1 ≠ k := by
        rintro rfl
        exact hn.1 (List.mem_map.2 ⟨_, h, rfl⟩)
      have := ih hn.2 h
      simp only [dictGet?] at this ⊢
      rw [List.find?_cons_of_neg (by simpa)]
      exact this

theorem dictGet?_cons (p : ι × ν) (d : List (ι × ν)) (k : ι) :
    dictGet? (p :: d) k = if p.1 = k then some p.2 else dictGet? d k := by
  by_cases h : p.1 = k <;> simp [dictGet?, h]

theorem dictGet?_append (d e : List (ι × ν)) (k : ι) :
    dictGet? (d ++ e) k = (dictGet? d k).or (dictGet? e k) := by
  induction d with
  | nil => simp [dictGet?]
  | cons p d ih =>
    rw [List.cons_append, dictGet?_cons, dictGet?_cons, ih]
    split_ifs <;> simp

theorem dictGet?_map_update (d : List (ι × ν)) (g : ι × ν → ν) (l k : ι) :
    dictGet? (d.map fun p => if p.1 = l then (p.1, g p) else p) k =
      if k = l then (dictGet? d k).map (fun v => g (k, v)) else dictGet? d k := by
  induction d with
  | nil => simp [dictGet?]
  | cons p d ih =>
    rw [List.map_cons, dictGet?_cons, dictGet?_cons, ih]
    by_cases hk : k = l
    · subst hk
      by_cases hp : p.1 = k
      · simp only [hp, if_true, Option.map_some]
        congr 2; exact Prod.ext hp rfl
      · simp [hp]
    · by_cases hp : p.1 = l
      · have : ¬ p.1 = k := by rintro h; exact hk (h.symm.trans hp)
        have h' : ¬ l = k := fun h => hk h.symm
        simp [hp, hk, h']
      · simp [hp, hk]

theorem dictGet?_dictSet (d : List (ι × ν)) (k k' : ι) (v : ν) :
    dictGet? (dictSet d k v) k' = if k' = k then some v else dictGet? d k' := by
  unfold dictSet
  split_ifs with h1 h2 h2
  · subst h2
    have := dictGet?_map_update d (fun _ => v) k' k'
    simp only [if_true] at this
    obtain ⟨w, hw⟩ := dictGet?_isSome h1
    rw [hw] at this
    simp only [Option.map_some] at this
    rw [← this]
    congr 1
    apply List.map_congr_left
    intro p _
    split_ifs with h
    · rw [h]
    · rfl
  · have := dictGet?_map_update d (fun _ => v) k k'
    simp only [h2, if_false] at this
    rw [← this]
    congr 1
    apply List.map_congr_left
    intro p _
    split_ifs with h
    · rw [h]
    · rfl
  · subst h2
    rw [dictGet?_append, dictGet?_eq_none.2 h1]
    simp [dictGet?]
  · rw [dictGet?_append]
    have : dictGet? [(k, v)] k' = none := by
      simp [dictGet?, Ne.symm (by exact h2 : k' ≠ k)]
    rw [this]; simp

theorem dictSet_keys (d : List (ι × ν)) (k : ι) (v : ν) :
    (dictSet d k v).map Prod.fst = if k ∈ d.map Prod.fst then d.map Prod.fst else d.map Prod.fst ++ [k] := by
  unfold dictSet
  split_ifs with h
  · rw [List.map_map]
    apply List.map_congr_left
    intro p _
    simp only [Function.comp]
    split_ifs with h'
    · exact h'.symm
    · rfl
  · simp

theorem dictSet_nodup (d : List (ι × ν)) (k : ι) (v : ν) (h : (d.map Prod.fst).Nodup) :
    ((dictSet d k v).map Prod.fst).Nodup := by
  rw [dictSet_keys]
  split_ifs with h'
  · exact h
  · exact List.nodup_append.2 ⟨h, by simp, by
      intro a ha b hb; simp at hb; subst hb; rintro rfl; exact h' ha⟩

theorem dictOf_aux (l : List (ι × ν)) (d : List (ι × ν)) (hd : (d.map Prod.fst).Nodup) :
    ((l.foldl (fun d p => dictSet d p.1 p.2) d).map Prod.fst).Nodup ∧
    (∀ k, dictGet? (l.foldl (fun d p => dictSet d p.1 p.2) d) k =
      (dictGet? l.reverse k).or (dictGet? d k)) := by
  induction l generalizing d with
  | nil => exact ⟨hd, fun k => by simp [dictGet?]⟩
  | cons p l ih =>
    obtain ⟨h1, h2⟩ := ih (dictSet d p.1 p.2) (dictSet_nodup d p.1 p.2 hd)
    refine ⟨h1, fun k => ?_⟩
    rw [List.foldl_cons, h2 k, List.reverse_cons, dictGet?_append, dictGet?_dictSet, dictGet?_cons]
    by_cases hk : k = p.1
    · subst hk
      cases dictGet? l.reverse p.1 <;> simp
    · have : ¬ p.1 = k := fun h => hk h.symm
      cases dictGet? l.reverse k <;> simp [hk, this, dictGet?]

theorem dictOf_nodup (l : List (ι × ν)) : ((dictOf l).map Prod.fst).Nodup :=
  (dictOf_aux l [] (by simp)).1

theorem dictOf_get? (l : List (ι × ι)) (k : ι) : dictGet? (dictOf l) k = Spec.lastTarget l k := by
  have := (dictOf_aux l [] (by simp)).2 k
  rw [dictOf, this]
  simp [Spec.lastTarget, dictGet?]

theorem lastTarget_eq_none {l : List (ι × ι)} {k : ι} :
    Spec.lastTarget l k = none ↔ k ∉ l.map Prod.fst := by
  have := dictGet?_eq_none (d := l.reverse) (k := k)
  simp only [dictGet?] at this
  rw [Spec.lastTarget, this]; simp

theorem lastTarget_mem {l : List (ι × ι)} {k v : ι} (h : Spec.lastTarget l k = some v) : (k, v) ∈ l := by
  have := dictGet?_mem (d := l.reverse) (k := k) (v := v) h
  simpa using this

theorem lastTarget_of_mem {l : List (ι × ι)} {k v : ι} (hn : (l.map Prod.fst).Nodup) (h : (k, v) ∈ l) :
    Spec.lastTarget l k = some v := by
  apply dictGet?_of_mem (d := l.reverse)
  · rw [List.map_reverse]; exact List.nodup_reverse.2 hn
  · simpa using h

theorem lastTarget_cons (p : ι × ι) (l : List (ι × ι)) (k : ι) :
    Spec.lastTarget (p :: l) k = (Spec.lastTarget l k).or (if p.1 = k then some p.2 else none) := by
  have := dictGet?_append l.reverse [p] k
  simp only [Spec.lastTarget, List.reverse_cons]
  unfold dictGet? at this
  rw [this]
  congr 1
  by_cases h : p.1 = k <;> simp [h]

theorem dictOf_keys_mem (l : List (ι × ι)) (k : ι) : k ∈ (dictOf l).map Prod.fst ↔ k ∈ l.map Prod.fst := by
  rw [← not_iff_not, ← dictGet?_eq_none, dictOf_get?, lastTarget_eq_none]

/-- two association lists with equal keys lists (nodup) and equal lookups are equal -/
theorem assoc_ext {d e : List (ι × ν)} (hk : d.map Prod.fst = e.map Prod.fst)
    (hn : (d.map Prod.fst).Nodup) (hg : ∀ k ∈ d.map Prod.fst, dictGet? d k = dictGet? e k) : d = e := by
  induction d generalizing e with
  | nil => cases e <;> simp_all
  | cons p d ih =>
    cases e with
    | nil => simp at hk
    | cons q e =>
      simp only [List.map_cons, List.cons.injEq] at hk
      simp only [List.map_cons, List.nodup_cons] at hn
      have h0 := hg p.1 (by simp)
      rw [dictGet?_cons, dictGet?_cons, if_pos rfl, if_pos hk.1.symm] at h0
      have hpq : p = q := Prod.ext hk.1 (Option.some.inj h0)
      congr 1
      apply ih hk.2 hn.2
      intro k hkm
      have := hg k (by simp only [List.map_cons, List.mem_cons]; exact Or.inr hkm)
      rw [dictGet?_cons, dictGet?_cons] at this
      have hne : ¬ p.1 = k := by rintro rfl; exact hn.1 hkm
      rwa [if_neg hne, if_neg (hk.1 ▸ hne)] at this

end dict

namespace Frame

theorem row?_eq_none {f : Frame ι κ α} {l : ι} : f.row? l = none ↔ l ∉ f.index := dictGet?_eq_none

theorem row?_isSome {f : Frame ι κ α} {l : ι} (h : l ∈ f.index) : ∃ r, f.row? l = some r :=
  dictGet?_isSome h

theorem index_setCell (nan : α) (f : Frame ι κ α) (l : ι) (c : κ) (v : α) :
    (f.setCell nan l c v).index = if l ∈ f.index then f.index else f.index ++ [l] := by
  unfold setCell
  split_ifs with h
  · unfold index
    simp only [List.map_map]
    apply List.map_congr_left
    intro p _
    simp only [Function.comp]
    split_ifs <;> rfl
  · simp [index]

theorem cols_setCell (nan : α) (f : Frame ι κ α) (l : ι) (c : κ) (v : α) :
    (f.setCell nan l c v).cols = f.cols := by
  unfold setCell; split_ifs <;> rfl

theorem row?_setCell (nan : α) (f : Frame ι κ α) (l k : ι) (c : κ) (v : α) :
    (f.setCell nan l c v).row? k =
      if k = l then some (Function.update ((f.row? l).getD fun _ => nan) c v) else f.row? k := by
  unfold setCell
  split_ifs with h h2 h2
  · subst h2
    obtain ⟨r, hr⟩ := row?_isSome h
    have := dictGet?_map_update f.rows (fun p => Function.update p.2 c v) k k
    simp only [if_true] at this
    show dictGet? _ _ = _
    rw [this]
    change (f.row? k).map _ = _
    simp [hr]
  · have := dictGet?_map_update f.rows (fun p => Function.update p.2 c v) l k
    simp only [h2, if_false] at this
    exact this
  · subst h2
    show dictGet? (f.rows ++ _) k = _
    rw [dictGet?_append]
    change (f.row? k).or _ = _
    rw [row?_eq_none.2 h]
    simp [dictGet?]
  · show dictGet? (f.rows ++ _) k = _
    rw [dictGet?_append]
    have : dictGet? [(l, Function.update (fun _ => nan) c v)] k = none := by
      simp [dictGet?, Ne.symm (by exact h2 : k ≠ l)]
    rw [this, Option.or_none]; rfl

end Frame

namespace Field
open Spec

/-- One pass of the inner loop. -/
theorem inner_ok (nan : α) (data : Frame ι κ α) (a b : ι) (columns : List κ) (src : κ → α)
    (hb : data.row? b = some src) (hc : ∀ c ∈ columns, c ∈ data.cols) (fix : Frame ι κ α) :
    (columns.foldlM (init := fix) fun fix c => do
      let v ← data.get b c
      pure (fix.setCell nan a c v)) =
    (Except.ok (columns.foldl (fun fix c => fix.setCell nan a c (src c)) fix) : Except PyErr _) := by
  induction columns generalizing fix with
  | nil => rfl
  | cons c cs ih =>
    have hcc : c ∈ data.cols := hc c (by simp)
    have : data.get b c = .ok (src c) := by simp [Frame.get, hcc, hb]
    rw [List.foldlM_cons, this]
    exact ih (fun c hc' => hc c (by simp [hc'])) _

theorem inner_rows (nan : α) (a : ι) (columns : List κ) (src : κ → α) (fix : Frame ι κ α) (k : ι) :
    (columns.foldl (fun fix c => fix.setCell nan a c (src c)) fix).row? k =
      if k = a ∧ columns ≠ [] then
        some (fun c => if c ∈ columns then src c else (fix.row? a).getD (fun _ => nan) c)
      else fix.row? k := by
  induction columns generalizing fix with
  | nil => simp
  | cons c cs ih =>
    rw [List.foldl_cons, ih, Frame.row?_setCell, Frame.row?_setCell]
    by_cases hk : k = a
    · subst hk
      by_cases hcs : cs = []
      · subst hcs
        simp only [true_and, ne_eq, not_true_eq_false, if_false, if_true, List.cons_ne_nil, not_false_iff, Option.some.injEq]
        funext c'
        by_cases h : c' = c
        · subst h; simp
        · simp [Function.update, h]
      · simp only [hcs, true_and, ne_eq, not_false_iff, if_true, List.cons_ne_nil, Option.some.injEq, Option.getD_some, List.mem_cons]
        funext c'
        by_cases h : c' ∈ cs
        · simp [h]
        · by_cases h' : c' = c
          · subst h'; simp [h]
          · simp [Function.update, h, h']
    · simp [hk]

theorem inner_index (nan : α) (a : ι) (columns : List κ) (src : κ → α) (fix : Frame ι κ α) :
    (columns.foldl (fun fix c => fix.setCell nan a c (src c)) fix).cols = fix.cols ∧
    (columns.foldl (fun fix c => fix.setCell nan a c (src c)) fix).index =
      if a ∈ fix.index ∨ columns = [] then fix.index else fix.index ++ [a] := by
  induction columns generalizing fix with
  | nil => simp
  | cons c cs ih =>
    rw [List.foldl_cons]
    obtain ⟨h1, h2⟩ := ih (fix.setCell nan a c (src c))
    rw [h1, h2, Frame.cols_setCell, Frame.index_setCell]
    refine ⟨rfl, ?_⟩
    by_cases h : a ∈ fix.index
    · simp [h]
    · simp [h]

/-- Main characterisation of the outer loop. -/
theorem remap_main (nan : α) (data : Frame ι κ α) (columns : List κ) (hne : columns ≠ [])
    (hc : ∀ c ∈ columns, c ∈ data.cols) (remap : List (ι × ι))
    (hr : ∀ p ∈ remap, p.2 ∈ data.index) (fix : Frame ι κ α) :
    ∃ d', (remap.foldlM (init := fix) fun fix item =>
        columns.foldlM (init := fix) fun fix c => do
          let v ← data.get item.2 c
          pure (fix.setCell nan item.1 c v)) = (Except.ok d' : Except PyErr _) ∧
      d'.cols = fix.cols ∧
      ((∀ p ∈ remap, p.1 ∈ fix.index) → d'.index = fix.index) ∧
      ∀ l, d'.row? l = match lastTarget remap l with
        | none => fix.row? l
        | some s => some (fun c => if c ∈ columns then ((data.row? s).getD fun _ => nan) c
            else ((fix.row? l).getD fun _ => nan) c) := by
  induction remap generalizing fix with
  | nil => exact ⟨fix, rfl, rfl, fun _ => rfl, fun l => by simp [lastTarget]⟩
  | cons p remap ih =>
    obtain ⟨src, hsrc⟩ := Frame.row?_isSome (hr p (by simp))
    have hin := inner_ok nan data p.1 p.2 columns src hsrc hc fix
    obtain ⟨d', h1, h2, h3, h4⟩ := ih (fun q hq => hr q (by simp [hq]))
      (columns.foldl (fun fix c => fix.setCell nan p.1 c (src c)) fix)
    obtain ⟨hi1, hi2⟩ := inner_index nan p.1 columns src fix
    refine ⟨d', ?_, ?_, ?_, ?_⟩
    · rw [List.foldlM_cons, hin]; exact h1
    · rw [h2, hi1]
    · intro hall
      have hp : p.1 ∈ fix.index := hall p (by simp)
      rw [hi2] at h3
      simp only [hp, true_or, if_true] at h3
      exact h3 (fun q hq => hall q (by simp [hq]))
    · intro l
      rw [h4 l, lastTarget_cons]
      cases hl : lastTarget remap l with
      | none =>
        simp only [Option.none_or]
        rw [inner_rows]
        by_cases hpl : p.1 = l
        · subst hpl
          simp [hne, hsrc]
        · simp [hpl, Ne.symm hpl]
      | some s =>
        simp only [Option.some_or, Option.some.injEq]
        rw [inner_rows]
        funext c
        by_cases hcc : c ∈ columns
        · simp [hcc]
        · simp only [hcc, if_false]
          by_cases hpl : l = p.1
          · subst hpl; simp [hne, hcc]
          · simp [hpl]

theorem remap_keyError (nan : α) (data : Frame ι κ α) (columns : List κ) (hne : columns ≠ [])
    (hc : ∀ c ∈ columns, c ∈ data.cols) (remap : List (ι × ι))
    (hr : ∃ p ∈ remap, p.2 ∉ data.index) (fix : Frame ι κ α) :
    (remap.foldlM (init := fix) fun fix item =>
        columns.foldlM (init := fix) fun fix c => do
          let v ← data.get item.2 c
          pure (fix.setCell nan item.1 c v)) = (Except.error .keyError : Except PyErr _) := by
  induction remap generalizing fix with
  | nil => obtain ⟨p, hp, _⟩ := hr; simp at hp
  | cons q remap ih =>
    by_cases hq : q.2 ∈ data.index
    · obtain ⟨src, hsrc⟩ := Frame.row?_isSome hq
      rw [List.foldlM_cons, inner_ok nan data q.1 q.2 columns src hsrc hc fix]
      apply ih
      obtain ⟨p, hp, hp'⟩ := hr
      rcases List.mem_cons.1 hp with rfl | hp
      · exact absurd hq hp'
      · exact ⟨p, hp, hp'⟩
    · obtain ⟨c, cs, rfl⟩ := List.exists_cons_of_ne_nil hne
      have : data.get q.2 c = .error .keyError := by
        simp [Frame.get, hc c (by simp), Frame.row?_eq_none.2 hq]
      rw [List.foldlM_cons, List.foldlM_cons, this]
      rfl

end Field
end SST

namespace SST.Field
open SST SST.Spec
variable {ι κ α : Type} [DecidableEq κ]

section cascade
variable [LinearOrder ι]

theorem sortPairs_perm (l : List (ι × ι)) : (sortPairs l).Perm l := List.mergeSort_perm _ _

theorem sortPairs_sorted (l : List (ι × ι)) : (sortPairs l).Pairwise (fun a b => a.1 ≤ b.1) := by
  have := List.pairwise_mergeSort (le := fun a b : ι × ι => decide (a.1 ≤ b.1))
    (by intro a b c h1 h2; simp at *; exact h1.trans h2)
    (by intro a b; simp; exact le_total _ _) l
  exact this.imp (by simp)

theorem lastTarget_perm {l l' : List (ι × ι)} (hp : l.Perm l') (hn : (l.map Prod.fst).Nodup) (k : ι) :
    lastTarget l k = lastTarget l' k := by
  have hn' : (l'.map Prod.fst).Nodup := (hp.map Prod.fst).nodup_iff.1 hn
  cases h : lastTarget l k with
  | none =>
    rw [lastTarget_eq_none] at h
    symm; rw [lastTarget_eq_none]
    intro h'; exact h ((hp.map Prod.fst).mem_iff.2 h')
  | some v =>
    exact (lastTarget_of_mem hn' (hp.mem_iff.1 (lastTarget_mem h))).symm

theorem cascade_fold (A B : List (ι × ι)) (f : ι → ι) (keys : List ι)
    (h : ∀ k ∈ keys, ∃ b, dictGet? B k = some b ∧ dictGet? A b = some (f k))
    (G : List (ι × ι)) (hn : keys.Nodup) (hd : ∀ k ∈ keys, k ∉ G.map Prod.fst) :
    keys.foldlM (cascadeStep A B) G =
    (Except.ok (G ++ keys.map fun k => (k, f k)) : Except PyErr _) := by
  induction keys generalizing G with
  | nil => simp [List.foldlM]; rfl
  | cons k ks ih =>
    obtain ⟨b, hb, ha⟩ := h k (by simp)
    rw [List.foldlM_cons]
    have hs : cascadeStep A B G k = .ok (dictSet G k (f k)) := by simp only [cascadeStep, hb, ha]
    rw [hs]
    have hk : k ∉ G.map Prod.fst := hd k (by simp)
    have hset : dictSet G k (f k) = G ++ [(k, f k)] := by unfold dictSet; rw [if_neg hk]
    rw [hset]
    have := ih (fun k hk => h k (by simp [hk])) (G ++ [(k, f k)]) (List.nodup_cons.1 hn).2 (by
      intro k' hk'
      rw [List.map_append, List.mem_append]
      rintro (h' | h')
      · exact hd k' (by simp [hk']) h'
      · simp at h'; subst h'; exact (List.nodup_cons.1 hn).1 hk')
    refine Eq.trans this ?_
    simp

theorem cascade_fold_error (A B : List (ι × ι)) (keys : List ι)
    (h : ∃ k ∈ keys, ∀ b, dictGet? B k = some b → dictGet? A b = none) (G : List (ι × ι)) :
    keys.foldlM (cascadeStep A B) G =
    (Except.error .keyError : Except PyErr (List (ι × ι))) := by
  induction keys generalizing G with
  | nil => obtain ⟨k, hk, _⟩ := h; simp at hk
  | cons k ks ih =>
    rw [List.foldlM_cons]
    cases hb : dictGet? B k with
    | none =>
      have hs : cascadeStep A B G k = .error .keyError := by simp only [cascadeStep, hb]
      rw [hs]; rfl
    | some b =>
      cases ha : dictGet? A b with
      | none =>
        have hs : cascadeStep A B G k = .error .keyError := by simp only [cascadeStep, hb, ha]
        rw [hs]; rfl
      | some a =>
        have hs : cascadeStep A B G k = .ok (dictSet G k a) := by simp only [cascadeStep, hb, ha]
        rw [hs]
        obtain ⟨k', hk', hk''⟩ := h
        rcases List.mem_cons.1 hk' with rfl | hk'
        · rw [hk'' b hb] at ha; cases ha
        · exact ih ⟨k', hk', hk''⟩ _

theorem cascade_ok (r1 r2 : List (ι × ι))
    (h : ∀ k ∈ r1.map Prod.fst, ∃ b, lastTarget r2 k = some b ∧ b ∈ r1.map Prod.fst) :
    ∃ out, cascadeRemap r1 r2 = .ok out ∧ (out.map Prod.fst).Pairwise (· < ·) ∧
      (∀ k, k ∈ out.map Prod.fst ↔ k ∈ r1.map Prod.fst) ∧
      (∀ k b, k ∈ r1.map Prod.fst → lastTarget r2 k = some b → lastTarget out k = lastTarget r1 b) := by
  classical
  let f : ι → ι := fun k => ((lastTarget r2 k).bind (lastTarget r1)).getD k
  have hf : ∀ k ∈ (dictOf r1).map Prod.fst, ∃ b, dictGet? (dictOf r2) k = some b ∧
      dictGet? (dictOf r1) b = some (f k) := by
    intro k hk
    rw [dictOf_keys_mem] at hk
    obtain ⟨b, hb, hb'⟩ := h k hk
    refine ⟨b, by rw [dictOf_get?, hb], ?_⟩
    rw [dictOf_get?]
    cases ha : lastTarget r1 b with
    | none => exact absurd hb' (lastTarget_eq_none.1 ha)
    | some a => simp [f, hb, ha]
  have hfold := cascade_fold (dictOf r1) (dictOf r2) f _ hf [] (dictOf_nodup r1) (by simp)
  rw [List.nil_append] at hfold
  set G := ((dictOf r1).map Prod.fst).map fun k => (k, f k) with hG
  have hGk : G.map Prod.fst = (dictOf r1).map Prod.fst := by
    simp [hG, Function.comp_def]
  have hGn : (G.map Prod.fst).Nodup := by rw [hGk]; exact dictOf_nodup r1
  have hperm := sortPairs_perm G
  have hn' : ((sortPairs G).map Prod.fst).Nodup := (hperm.map Prod.fst).nodup_iff.2 hGn
  refine ⟨sortPairs G, ?_, ?_, ?_, ?_⟩
  · unfold cascadeRemap
    simp only [hfold]
    rfl
  · have h1 : ((sortPairs G).map Prod.fst).Pairwise (· ≤ ·) := by
      rw [List.pairwise_map]; exact sortPairs_sorted G
    exact (h1.and hn').imp fun ⟨h1, h2⟩ => lt_of_le_of_ne h1 h2
  · intro k
    rw [(hperm.map Prod.fst).mem_iff, hGk, dictOf_keys_mem]
  · intro k b hk hb
    rw [lastTarget_perm hperm hn' k]
    obtain ⟨b', hb', hb''⟩ := h k hk
    rw [hb] at hb'; cases hb'
    cases ha : lastTarget r1 b with
    | none => exact absurd hb'' (lastTarget_eq_none.1 ha)
    | some a =>
      apply lastTarget_of_mem hGn
      rw [hG, List.mem_map]
      exact ⟨k, (dictOf_keys_mem r1 k).2 hk, by simp [f, hb, ha]⟩

theorem cascade_error (r1 r2 : List (ι × ι))
    (h : ∃ k ∈ r1.map Prod.fst, ∀ b, lastTarget r2 k = some b → b ∉ r1.map Prod.fst) :
    cascadeRemap r1 r2 = .error .keyError := by
  obtain ⟨k, hk, hk'⟩ := h
  have := cascade_fold_error (dictOf r1) (dictOf r2) ((dictOf r1).map Prod.fst)
    ⟨k, (dictOf_keys_mem r1 k).2 hk, by
      intro b hb
      rw [dictOf_get?] at hb
      rw [dictOf_get?, lastTarget_eq_none]
      exact hk' b hb⟩ []
  unfold cascadeRemap
  simp only [this]
  rfl

theorem sorted_pairs_ext {l l' : List (ι × ι)} (h : (l.map Prod.fst).Pairwise (· < ·))
    (h' : (l'.map Prod.fst).Pairwise (· < ·)) (hk : ∀ k, k ∈ l.map Prod.fst ↔ k ∈ l'.map Prod.fst)
    (hg : ∀ k ∈ l.map Prod.fst, lastTarget l k = lastTarget l' k) : l = l' := by
  have hn : (l.map Prod.fst).Nodup := h.imp ne_of_lt
  have hn' : (l'.map Prod.fst).Nodup := h'.imp ne_of_lt
  have hkeys : l.map Prod.fst = l'.map Prod.fst := by
    apply List.Perm.eq_of_pairwise (le := (· < ·)) _ h h'
    · rw [List.perm_ext_iff_of_nodup hn hn']; exact hk
    · intro a b _ _ h1 h2; exact absurd h1 (not_lt.2 h2.le)
  apply assoc_ext hkeys hn
  intro k hkm
  have := hg k hkm
  cases hd : lastTarget l k with
  | none => exact absurd hkm (lastTarget_eq_none.1 hd)
  | some v =>
    rw [dictGet?_of_mem hn (lastTarget_mem hd)]
    rw [hd] at this
    rw [dictGet?_of_mem hn' (lastTarget_mem this.symm)]

end cascade

section frames
variable [DecidableEq ι]

theorem cell_eq (f : Frame ι κ α) (l : ι) (c : κ) :
    cell f l c = if c ∈ f.cols then (f.row? l).map (· c) else none := by
  unfold cell Frame.row? dictGet?
  split_ifs
  · simp [Option.map_map, Function.comp_def]
  · rfl

/-- `remap_main` for the actual function, with any column selection. -/
theorem remap_ok (nan : α) (d : Frame ι κ α) (remap : List (ι × ι)) (columns : Option (List κ))
    (hc : ∀ c ∈ columns.getD d.cols, c ∈ d.cols)
    (h1 : ∀ p ∈ remap, p.1 ∈ d.index) (h2 : ∀ p ∈ remap, p.2 ∈ d.index) :
    ∃ d', remapPositions nan d remap columns = .ok d' ∧ d'.index = d.index ∧ d'.cols = d.cols ∧
      ∀ l ∈ d.index, d'.row? l = some (fun c => if c ∈ columns.getD d.cols then
        ((d.row? ((lastTarget remap l).getD l)).getD fun _ => nan) c else
        ((d.row? l).getD fun _ => nan) c) := by
  by_cases hne : columns.getD d.cols = []
  · refine ⟨d, ?_, rfl, rfl, ?_⟩
    · unfold remapPositions
      rw [hne]
      clear h1 h2
      induction remap with
      | nil => rfl
      | cons p r ih => rw [List.foldlM_cons]; exact ih
    · intro l hl
      obtain ⟨r, hr⟩ := Frame.row?_isSome hl
      simp [hne, hr]
  · obtain ⟨d', e1, e2, e3, e4⟩ := remap_main nan d _ hne hc remap h2 d
    refine ⟨d', e1, e3 h1, e2, ?_⟩
    intro l hl
    rw [e4 l]
    obtain ⟨r, hr⟩ := Frame.row?_isSome hl
    cases hlt : lastTarget remap l with
    | none => simp [hr]
    | some s => simp

theorem frame_ext {d d' : Frame ι κ α} (hn : d.index.Nodup) (hi : d'.index = d.index)
    (hc : d'.cols = d.cols) (h : ∀ l ∈ d.index, d'.row? l = d.row? l) : d' = d := by
  obtain ⟨c, r⟩ := d
  obtain ⟨c', r'⟩ := d'
  simp only at hc
  subst hc
  congr 1
  exact assoc_ext hi (by show r'.map Prod.fst |>.Nodup; rw [show r'.map Prod.fst = r.map Prod.fst from hi]; exact hn)
    (fun k hk => h k (by rw [← hi]; exact hk))

theorem rows_eq_map (nan : α) (d : Frame ι κ α) (hn : d.index.Nodup) :
    d.rows = d.index.map fun l => (l, (d.row? l).getD fun _ => nan) := by
  apply assoc_ext
  · simp [Frame.index, Function.comp_def]
  · exact hn
  · intro k hk
    obtain ⟨r, hr⟩ := Frame.row?_isSome (f := d) hk
    have e : dictGet? d.rows k = some r := hr
    rw [e]
    symm
    apply dictGet?_of_mem
    · simp only [List.map_map, Function.comp_def, List.map_id']; exact hn
    · rw [List.mem_map]; exact ⟨k, hk, by simp [hr]⟩

end frames
end SST.Field
