import Verif.Spec.FullProcess
import Verif.Proofs.Reassign
import Verif.Props.Assign
import Verif.Props.Predict
import Verif.Props.Field

/-! # Lemmas about the complete reassignment procedure -/

namespace SST.Field
open SST SST.Spec SST.Spatial

section loop
variable {ι : Type} [LinearOrder ι]

theorem procUpdate_layouts (s : ProcState ι) (new : List (ι × ι)) (upd : Frame ι String ℝ) :
    (procUpdate s new upd).1.layouts = s.layouts ++ [upd] ∧ (procUpdate s new upd).1.remaps = s.remaps ++ [new] ∧
      (procUpdate s new upd).1.changed = changedIds new s.remap ∧
      ((procUpdate s new upd).2 = false ↔ new ∈ s.remaps ∨ 10 ≤ s.layouts.length) := by
  unfold procUpdate
  split_ifs with h <;> simp_all

theorem procStep_ok {lsa : LSA} {nan : ℝ} {predict : Predictor ι} {inv : ι → String} {f : Frame ι String ℝ} {s : ProcState ι}
    {r : ProcState ι × Bool} (h : procStep lsa nan predict inv f s = .ok r) :
    ∃ q new upd, roundRemap lsa nan predict inv f.index s.layout = .ok q ∧ cascadeRemap s.remap q = .ok new ∧
      remapPositions nan f new none = .ok upd ∧ r = procUpdate s new upd := by
  unfold procStep at h
  cases h1 : roundRemap lsa nan predict inv f.index s.layout with
  | error e => rw [h1] at h; simp [bind, Except.bind] at h
  | ok q =>
    rw [h1] at h
    simp only [bind, Except.bind] at h
    cases h2 : cascadeRemap s.remap q with
    | error e => rw [h2] at h; simp at h
    | ok new =>
      rw [h2] at h
      simp only at h
      cases h3 : remapPositions nan f new none with
      | error e => rw [h3] at h; simp [Except.map] at h
      | ok upd =>
        rw [h3] at h
        simp only [Except.map, Except.ok.injEq] at h
        exact ⟨q, new, upd, rfl, h2, h3, h.symm⟩

/-- An invariant that every pass preserves holds at the end. -/
theorem procLoop_invariant {lsa : LSA} {nan : ℝ} {predict : Predictor ι} {inv : ι → String} {f : Frame ι String ℝ}
    (I : ProcState ι → Prop) (E : ProcState ι → Prop)
    (hstep : ∀ s r, I s → procStep lsa nan predict inv f s = .ok r → (r.2 = true → I r.1) ∧ (r.2 = false → E r.1)) (n : ℕ) :
    ∀ (s st : ProcState ι), I s → procLoop lsa nan predict inv f n s = .ok (some st) → E st := by
  induction n with
  | zero => intro s st _ h; simp [procLoop] at h
  | succ n ih =>
    intro s st hI h
    unfold procLoop at h
    cases h1 : procStep lsa nan predict inv f s with
    | error e => rw [h1] at h; simp [bind, Except.bind] at h
    | ok r =>
      rw [h1] at h
      simp only [bind, Except.bind] at h
      obtain ⟨a, b⟩ := hstep s r hI h1
      by_cases hw : r.2 = true
      · rw [if_pos hw] at h
        exact ih _ _ (a hw) h
      · rw [if_neg hw] at h
        simp only [Except.ok.injEq, Option.some.injEq] at h
        rw [← h]
        exact b (by simpa using hw)

/-- Passes that cannot fail end in a state, within `10 - rounds done` further passes. -/
theorem procLoop_total {lsa : LSA} {nan : ℝ} {predict : Predictor ι} {inv : ι → String} {f : Frame ι String ℝ}
    (I : ProcState ι → Prop) (hstep : ∀ s, I s → ∃ r, procStep lsa nan predict inv f s = .ok r ∧ (r.2 = true → I r.1)) (n : ℕ) :
    ∀ s, I s → 11 ≤ n + s.layouts.length → 1 ≤ n → ∃ st, procLoop lsa nan predict inv f n s = .ok (some st) := by
  induction n with
  | zero => intro s _ _ h; omega
  | succ n ih =>
    intro s hI hn _
    obtain ⟨r, h1, h2⟩ := hstep s hI
    unfold procLoop
    rw [h1]
    simp only [bind, Except.bind]
    by_cases hw : r.2 = true
    · rw [if_pos hw]
      obtain ⟨q, new, upd, -, -, -, rfl⟩ := procStep_ok h1
      obtain ⟨e1, -, -, e4⟩ := procUpdate_layouts s new upd
      have : s.layouts.length < 10 := by
        by_contra hc
        have := e4.2 (Or.inr (by omega))
        rw [this] at hw; cases hw
      have hl : (procUpdate s new upd).1.layouts.length = s.layouts.length + 1 := by rw [e1]; simp
      exact ih _ (h2 hw) (by omega) (by omega)
    · rw [if_neg hw]; exact ⟨_, rfl⟩

theorem procLoop_never_none {lsa : LSA} {nan : ℝ} {predict : Predictor ι} {inv : ι → String} {f : Frame ι String ℝ} (n : ℕ) :
    ∀ s : ProcState ι, 11 ≤ n + s.layouts.length → 1 ≤ n → procLoop lsa nan predict inv f n s ≠ .ok none := by
  induction n with
  | zero => intro s _ h; omega
  | succ n ih =>
    intro s hn _
    unfold procLoop
    cases h1 : procStep lsa nan predict inv f s with
    | error e => simp [bind, Except.bind]
    | ok r =>
      simp only [bind, Except.bind]
      by_cases hw : r.2 = true
      · rw [if_pos hw]
        obtain ⟨q, new, upd, -, -, -, rfl⟩ := procStep_ok h1
        obtain ⟨e1, -, -, e4⟩ := procUpdate_layouts s new upd
        have : s.layouts.length < 10 := by
          by_contra hc
          have := e4.2 (Or.inr (by omega))
          rw [this] at hw; cases hw
        have hl : (procUpdate s new upd).1.layouts.length = s.layouts.length + 1 := by rw [e1]; simp
        exact ih _ (by omega) (by omega)
      · rw [if_neg hw]; simp

theorem procLoop_mono {lsa : LSA} {nan : ℝ} {predict : Predictor ι} {inv : ι → String} {f : Frame ι String ℝ} (n : ℕ) :
    ∀ (s : ProcState ι) (k : ℕ), procLoop lsa nan predict inv f n s ≠ .ok none →
      procLoop lsa nan predict inv f (n + k) s = procLoop lsa nan predict inv f n s := by
  induction n with
  | zero => intro s k h; simp [procLoop] at h
  | succ n ih =>
    intro s k h
    rw [show n + 1 + k = (n + k) + 1 by omega]
    unfold procLoop at h ⊢
    cases h1 : procStep lsa nan predict inv f s with
    | error e => simp [bind, Except.bind]
    | ok r =>
      rw [h1] at h
      simp only [bind, Except.bind] at h ⊢
      by_cases hw : r.2 = true
      · rw [if_pos hw] at h ⊢
        rw [if_pos hw]
        exact ih _ _ h
      · rw [if_neg hw, if_neg hw]

end loop

section round
variable {ι : Type} [LinearOrder ι]

theorem mem_invIds {inv : ι → String} {ids : List ι} {name : String} : name ∈ invIds inv ids ↔ ∃ l ∈ ids, inv l = name := by
  unfold invIds
  rw [(List.mergeSort_perm _ _).mem_iff]
  simp

theorem nodup_invIds (inv : ι → String) (ids : List ι) : (invIds inv ids).Nodup := by
  unfold invIds
  rw [(List.mergeSort_perm _ _).nodup_iff]
  exact List.nodup_dedup _

theorem refsub_apart {inv : ι → String} {ids : List ι} (h : NamesApart inv ids) {name : String} (hn : name ∈ invIds inv ids) :
    refsub inv ids name = ids.filter fun l => inv l = name := by
  obtain ⟨a, ha, rfl⟩ := mem_invIds.1 hn
  unfold refsub
  apply List.filter_congr
  intro b hb
  unfold isIn
  by_cases e : inv b = inv a
  · simp [e]
  · have : ¬ (inv a).toList <:+: (inv b).toList := by
      rintro ⟨pre, post, hp⟩
      exact e (h a ha b hb ⟨pre, post, hp.symm⟩).symm
    simp [e, this]

/-- Bijections of the groups make a bijection of all combiners. -/
theorem bij_flatten {inv : ι → String} (names : List String) (hnn : names.Nodup) :
    ∀ (ids : List ι) (g : String → List (ι × ι)), (∀ l ∈ ids, inv l ∈ names) →
      (∀ name ∈ names, IsBijection (g name) (ids.filter fun l => inv l = name)) →
      IsBijection ((names.map g).flatten) ids := by
  induction names with
  | nil =>
    intro ids g h _
    cases ids with
    | nil => simp [IsBijection]
    | cons a l => simpa using h a
  | cons n names ih =>
    intro ids g h hb
    obtain ⟨hnot, hnn'⟩ := List.nodup_cons.1 hnn
    have hrest := ih hnn' (ids.filter fun l => ¬ inv l = n) g
      (by
        intro l hl
        simp only [List.mem_filter, decide_eq_true_eq] at hl
        rcases List.mem_cons.1 (h l hl.1) with e | e
        · exact absurd e hl.2
        · exact e)
      (by
        intro m hm
        have e : ((ids.filter fun l => ¬ inv l = n).filter fun l => inv l = m) = ids.filter fun l => inv l = m := by
          rw [List.filter_filter]
          apply List.filter_congr
          intro l _
          by_cases e : inv l = m
          · have : ¬ inv l = n := by rw [e]; rintro rfl; exact hnot hm
            simp [e, this]
            intro h; rw [h] at hm; exact hnot hm
          · simp [e]
        rw [e]
        exact hb m (List.mem_cons_of_mem _ hm))
    have hfirst := hb n List.mem_cons_self
    have hsplit : (ids.filter (fun l => inv l = n) ++ ids.filter fun l => ¬ inv l = n).Perm ids := by
      have := List.filter_append_perm (fun l => decide (inv l = n)) ids
      simpa using this
    constructor
    · rw [List.map_cons, List.flatten_cons, List.map_append]
      exact (hfirst.1.append hrest.1).trans hsplit
    · rw [List.map_cons, List.flatten_cons, List.map_append]
      exact (hfirst.2.append hrest.2).trans hsplit

theorem cascade_bij {r s : List (ι × ι)} {ids : List ι} (hn : ids.Nodup) (hr : IsBijection r ids) (hs : IsBijection s ids) :
    ∃ out, cascadeRemap r s = .ok out ∧ (out.map Prod.fst).Pairwise (· < ·) ∧ IsBijection out ids ∧
      ∀ p, p ∈ out ↔ ∃ b, (p.1, b) ∈ s ∧ (b, p.2) ∈ r := by
  have hr1 : (r.map Prod.fst).Nodup := hr.1.nodup_iff.2 hn
  have hs1 : (s.map Prod.fst).Nodup := hs.1.nodup_iff.2 hn
  have hmem : ∀ k ∈ r.map Prod.fst, ∃ b, lastTarget s k = some b ∧ b ∈ r.map Prod.fst := by
    intro k hk
    obtain ⟨p, hp, rfl⟩ := List.mem_map.1 (hs.1.mem_iff.2 (hr.1.mem_iff.1 hk))
    exact ⟨p.2, lastTarget_of_mem hs1 hp, hr.1.mem_iff.2 (hs.2.mem_iff.1 (List.mem_map_of_mem hp))⟩
  obtain ⟨out, e1, e2, e3, e4⟩ := cascade_ok r s hmem
  have ho1 : (out.map Prod.fst).Nodup := e2.imp ne_of_lt
  have hout : ∀ p, p ∈ out ↔ ∃ b, (p.1, b) ∈ s ∧ (b, p.2) ∈ r := by
    intro p
    constructor
    · intro hp
      have hk : p.1 ∈ r.map Prod.fst := (e3 _).1 (List.mem_map_of_mem hp)
      obtain ⟨b, hb, hb'⟩ := hmem _ hk
      refine ⟨b, lastTarget_mem hb, ?_⟩
      have := e4 _ _ hk hb
      rw [lastTarget_of_mem ho1 (show (p.1, p.2) ∈ out from hp)] at this
      exact lastTarget_mem this.symm
    · rintro ⟨b, h1, h2⟩
      have hk : p.1 ∈ r.map Prod.fst := hr.1.mem_iff.2 (hs.1.mem_iff.1 (List.mem_map.2 ⟨_, h1, rfl⟩))
      have := e4 _ _ hk (lastTarget_of_mem hs1 h1)
      rw [lastTarget_of_mem hr1 h2] at this
      exact lastTarget_mem this
  have hfst : (out.map Prod.fst).Perm ids := by
    rw [List.perm_ext_iff_of_nodup ho1 hn]
    intro k
    rw [e3, hr.1.mem_iff]
  refine ⟨out, e1, e2, ⟨hfst, ?_⟩, hout⟩
  have hlen : out.length = ids.length := by
    have := hfst.length_eq
    simpa using this
  have hsub : ids ⊆ out.map Prod.snd := by
    intro v hv
    obtain ⟨p, hp, rfl⟩ := List.mem_map.1 (hr.2.mem_iff.2 hv)
    obtain ⟨q, hq, e⟩ := List.mem_map.1 (hs.2.mem_iff.2 (hr.1.mem_iff.1 (List.mem_map_of_mem hp)))
    refine List.mem_map.2 ⟨(q.1, p.2), (hout _).2 ⟨p.1, ?_, hp⟩, rfl⟩
    rw [← e]; exact hq
  have hsp := List.Nodup.subperm hn hsub
  exact (hsp.perm_of_length_le (by simp [hlen])).symm

theorem mapM_ok_map {α β : Type} {g : α → Except PyErr β} {h : α → β} {l : List α} (hg : ∀ a ∈ l, g a = .ok (h a)) :
    l.mapM g = .ok (l.map h) := by
  induction l with
  | nil => rfl
  | cons a l ih =>
    rw [List.mapM_cons, hg a List.mem_cons_self, ih (fun b hb => hg b (List.mem_cons_of_mem _ hb))]
    rfl

theorem tablePts_index (f : Frame ι String ℝ) : (tablePts f).map Prod.fst = f.index := by
  simp [tablePts, Frame.index, Function.comp_def]

theorem posOf_tablePts {f : Frame ι String ℝ} {l : ι} {r : String → ℝ} (hr : f.row? l = some r) (hn : f.index.Nodup) :
    posOf (tablePts f) l = (r "E", r "N") := by
  have : (l, r) ∈ f.rows := dictGet?_mem hr
  exact posOf_mem (by rw [tablePts_index]; exact hn) (p := (l, (r "E", r "N"))) (List.mem_map.2 ⟨_, this, rfl⟩)

theorem locFrame_sub (f : Frame ι String ℝ) (hn : f.index.Nodup) (refs : List ι) (hr : ∀ l ∈ refs, l ∈ f.index) (hrn : refs.Nodup) :
    ∃ sub, locFrame f refs = .ok sub ∧ sub.cols = f.cols ∧ sub.index = refs ∧
      ∀ l ∈ refs, posOf (coords "E" "N" sub) l = posOf (tablePts f) l := by
  let row : ι → (String → ℝ) := fun l => (f.row? l).getD fun _ => 0
  have hrow : ∀ l ∈ refs, f.row? l = some (row l) := by
    intro l hl
    obtain ⟨r, hr'⟩ := Frame.row?_isSome (hr l hl)
    simp [row, hr']
  have hm : refs.mapM (locRef f) = .ok (refs.map fun l => (l, row l)) := by
    apply mapM_ok_map
    intro l hl
    simp only [locRef, hrow l hl]
  refine ⟨⟨f.cols, refs.map fun l => (l, row l)⟩, ?_, rfl, ?_, ?_⟩
  · unfold locFrame
    rw [hm]; rfl
  · simp [Frame.index, Function.comp_def]
  · intro l hl
    rw [posOf_tablePts (hrow l hl) hn]
    refine posOf_mem (p := (l, (row l "E", row l "N"))) ?_ ?_
    · simpa [coords, Function.comp_def] using hrn
    · simp only [coords, List.map_map, List.mem_map, Function.comp_apply]
      exact ⟨l, hl, rfl⟩

theorem locPreds_map {ids refs : List ι} (hn : ids.Nodup) (hr : ∀ l ∈ refs, l ∈ ids) (row : ι → PredRow) :
    locPreds (ids.map fun l => (l, row l)) refs = refs.map fun l => (l, row l) := by
  unfold locPreds
  induction refs with
  | nil => rfl
  | cons a refs ih =>
    have : dictGet? (ids.map fun l => (l, row l)) a = some (row a) :=
      dictGet?_of_mem (by simpa [Function.comp_def] using hn) (List.mem_map.2 ⟨a, hr a List.mem_cons_self, rfl⟩)
    rw [List.filterMap_cons, this]
    simp only [Option.map_some, List.map_cons]
    rw [ih fun l hl => hr l (List.mem_cons_of_mem _ hl)]

/-- The remap of one group is a bijection of the group. -/
theorem assignGroup_bij (lsa : LSA) (hl : IsLSA lsa) (nan : ℝ) (f : Frame ι String ℝ) (hn : f.index.Nodup) (hcols : f.cols = ["E", "N"])
    (row : ι → PredRow) (refs : List ι) (hr : ∀ l ∈ refs, l ∈ f.index) (hrn : refs.Nodup) :
    ∃ r, assignGroup lsa nan f (f.index.map fun l => (l, row l)) refs = .ok r ∧ IsBijection r refs := by
  obtain ⟨sub, e1, e2, e3, -⟩ := locFrame_sub f hn refs hr hrn
  unfold assignGroup
  rw [e1, locPreds_map hn hr]
  show ∃ r, (assignPositions lsa nan sub _).map Prod.fst = .ok r ∧ _
  have hlab : (refs.map fun l => (l, row l)).map Prod.fst = sub.index := by rw [e3]; simp [Function.comp_def]
  by_cases hN : ∃ p ∈ refs.map (fun l => (l, row l)), p.2.hasNaN = true
  · obtain ⟨remap, out, h1, -, h3, -⟩ := Props.Assign.C19_nan_fixed lsa hl nan sub (by rw [e3]; exact hrn) "E" "N" []
      (by rw [e2, hcols]) _ (by rw [hlab]) hN
    rw [h1]
    exact ⟨remap, rfl, by rw [← e3]; exact h3⟩
  · obtain ⟨remap, out, h1, h2, -⟩ := Props.Assign.C18_optimal_bijection lsa hl nan sub (by rw [e3]; exact hrn) "E" "N" []
      (by rw [e2, hcols]) _ hlab (by simpa using hN)
    rw [h1]
    exact ⟨remap, rfl, by rw [← e3]; exact h2⟩

theorem filter_sub_nodup {ids : List ι} (hn : ids.Nodup) (p : ι → Bool) : (∀ l ∈ ids.filter p, l ∈ ids) ∧ (ids.filter p).Nodup :=
  ⟨fun l hl => (List.mem_filter.1 hl).1, hn.filter _⟩

/-- One round with a predictor that answers for the layout: a one-to-one remap within the inverters. -/
theorem roundRemap_ok (lsa : LSA) (hl : IsLSA lsa) (nan : ℝ) (predict : Predictor ι) (inv : ι → String) (f : Frame ι String ℝ)
    (hn : f.index.Nodup) (hcols : f.cols = ["E", "N"]) (hap : NamesApart inv f.index) (row : ι → PredRow)
    (hp : ∀ l ∈ f.index, predict f l = .ok (row l)) :
    ∃ g : String → List (ι × ι), roundRemap lsa nan predict inv f.index f = .ok (((invIds inv f.index).map g).flatten) ∧
      (∀ name ∈ invIds inv f.index, assignGroup lsa nan f (f.index.map fun l => (l, row l)) (f.index.filter fun l => inv l = name) = .ok (g name) ∧
        IsBijection (g name) (f.index.filter fun l => inv l = name)) ∧
      WithinInverters inv f.index (((invIds inv f.index).map g).flatten) := by
  have hpr : predictAll predict f f.index = .ok (f.index.map fun l => (l, row l)) := by
    apply mapM_ok_map
    intro l hl'
    rw [hp l hl']; rfl
  have hex : ∀ name, ∃ r, assignGroup lsa nan f (f.index.map fun l => (l, row l)) (f.index.filter fun l => inv l = name) = .ok r ∧
      IsBijection r (f.index.filter fun l => inv l = name) := fun name =>
    assignGroup_bij lsa hl nan f hn hcols row _ (filter_sub_nodup hn _).1 (filter_sub_nodup hn _).2
  choose g hg1 hg2 using hex
  refine ⟨g, ?_, fun name _ => ⟨hg1 name, hg2 name⟩, ?_⟩
  · unfold roundRemap
    rw [hpr]
    show ((invIds inv f.index).mapM fun name => assignGroup lsa nan f _ (refsub inv f.index name)).map List.flatten = _
    rw [mapM_ok_map (h := g) (fun name hname => by rw [refsub_apart hap hname, hg1])]
    rfl
  · refine ⟨bij_flatten _ (nodup_invIds _ _) _ _ (fun l hl' => mem_invIds.2 ⟨l, hl', rfl⟩) (fun name _ => hg2 name), ?_⟩
    intro p hp'
    obtain ⟨l, hl', hpl⟩ := List.mem_flatten.1 hp'
    obtain ⟨name, -, rfl⟩ := List.mem_map.1 hl'
    have h1 := (hg2 name).1.mem_iff.1 (List.mem_map_of_mem hpl)
    have h2 := (hg2 name).2.mem_iff.1 (List.mem_map_of_mem hpl)
    simp only [List.mem_filter, decide_eq_true_eq] at h1 h2
    rw [h1.2, h2.2]

/-- Remapping the plan by a bijection. -/
theorem remap_layout (nan : ℝ) (f : Frame ι String ℝ) (hn : f.index.Nodup) (hcols : f.cols = ["E", "N"]) (r : List (ι × ι))
    (hb : IsBijection r f.index) : ∃ f', remapPositions nan f r none = .ok f' ∧ LayoutOf f r f' := by
  obtain ⟨f', e1, e2, e3, e4⟩ := remap_ok nan f r none (by simp)
    (fun p hp => hb.1.mem_iff.1 (List.mem_map_of_mem hp)) (fun p hp => hb.2.mem_iff.1 (List.mem_map_of_mem hp))
  refine ⟨f', e1, e2, e3, ?_⟩
  intro p hp
  have h1 := hb.1.mem_iff.1 (List.mem_map_of_mem (f := Prod.fst) hp)
  have h2 := hb.2.mem_iff.1 (List.mem_map_of_mem (f := Prod.snd) hp)
  have hrow := e4 p.1 h1
  rw [lastTarget_of_mem (hb.1.nodup_iff.2 hn) (show (p.1, p.2) ∈ r from hp)] at hrow
  obtain ⟨row, hr⟩ := Frame.row?_isSome h2
  have hn' : f'.index.Nodup := by rw [e2]; exact hn
  show posOf (tablePts f') p.1 = posOf (tablePts f) p.2
  rw [posOf_tablePts hrow hn', posOf_tablePts hr hn]
  simp [hcols, hr]

end round

end SST.Field
