import Verif.Model.CmvDemo
import Verif.Props.CmvReport
import Verif.Props.CmvXcorr
import Verif.Props.CmvGeom
import Verif.Props.CloudMore

/-! # C197-C199: the cloud motion demonstration -/

namespace SST.Props.CmvDemo
open SST SST.Cmv SST.Spatial SST.Spec SST.Props.Cmv

variable {ι : Type} [DecidableEq ι]

/-! ## C197 -/

theorem mem_combosRepl {l : List ι} {a b : ι} : (a, b) ∈ combosRepl l ↔ (a = b ∧ a ∈ l) ∨ [a, b].Sublist l := by
  induction l with
  | nil => simp [combosRepl]
  | cons x xs ih =>
    rw [combosRepl, List.mem_append, ih, List.cons_sublist_cons']
    simp only [List.mem_map, Prod.mk.injEq, List.mem_cons, List.singleton_sublist]
    constructor
    · rintro (⟨y, hy, rfl, rfl⟩ | h)
      · rcases hy with rfl | hy
        · exact Or.inl ⟨rfl, Or.inl rfl⟩
        · exact Or.inr (Or.inr ⟨rfl, hy⟩)
      · tauto
    · rintro (⟨rfl, rfl | h⟩ | h | ⟨rfl, h⟩)
      · exact Or.inl ⟨_, Or.inl rfl, rfl, rfl⟩
      · exact Or.inr (Or.inl ⟨rfl, h⟩)
      · exact Or.inr (Or.inr h)
      · exact Or.inl ⟨_, Or.inr h, rfl, rfl⟩

theorem setLag_keys {col : List (ι × Option ℝ)} {k : ι} (v : Option ℝ) (h : k ∈ col.map Prod.fst) : (setLag col k v).map Prod.fst = col.map Prod.fst := by
  unfold setLag
  rw [if_pos h, List.map_map]
  refine List.map_congr_left fun r _ => ?_
  simp only [Function.comp]
  split_ifs with e
  · exact e.symm
  · rfl

theorem mem_setLag {col : List (ι × Option ℝ)} {k : ι} {v : Option ℝ} (h : k ∈ col.map Prod.fst) {p : ι} {w : Option ℝ} :
    (p, w) ∈ setLag col k v ↔ (p = k ∧ w = v) ∨ (p ≠ k ∧ (p, w) ∈ col) := by
  unfold setLag
  rw [if_pos h]
  constructor
  · intro hm
    obtain ⟨r, hr, e⟩ := List.mem_map.1 hm
    split_ifs at e with hk
    · cases e; exact Or.inl ⟨rfl, rfl⟩
    · subst e; exact Or.inr ⟨hk, hr⟩
  · rintro (⟨rfl, rfl⟩ | ⟨hk, hm⟩)
    · obtain ⟨r, hr, e⟩ := List.mem_map.1 h
      exact List.mem_map.2 ⟨r, hr, by rw [if_pos e]⟩
    · exact List.mem_map.2 ⟨_, hm, by rw [if_neg hk]⟩

theorem fold_setLag (l : List (ι × Option ℝ)) : ∀ (col : List (ι × Option ℝ)), (∀ p ∈ l, p.1 ∈ col.map Prod.fst) →
    (l.foldl (fun c p => setLag c p.1 p.2) col).map Prod.fst = col.map Prod.fst ∧
      ∀ p w, (p, w) ∈ l.foldl (fun c p => setLag c p.1 p.2) col → (p, w) ∈ l ∨ ((∀ q ∈ l, q.1 ≠ p) ∧ (p, w) ∈ col) := by
  induction l with
  | nil => intro col _; exact ⟨rfl, fun p w h => Or.inr ⟨by simp, h⟩⟩
  | cons q l ih =>
    intro col h
    have hk := setLag_keys q.2 (h q List.mem_cons_self)
    obtain ⟨h1, h2⟩ := ih (setLag col q.1 q.2) (fun p hp => by rw [hk]; exact h p (List.mem_cons_of_mem _ hp))
    refine ⟨h1.trans hk, fun p w hm => ?_⟩
    rcases h2 p w hm with h3 | ⟨h3, h4⟩
    · exact Or.inl (List.mem_cons_of_mem _ h3)
    · rcases (mem_setLag (h q List.mem_cons_self)).1 h4 with ⟨rfl, rfl⟩ | ⟨h5, h6⟩
      · exact Or.inl List.mem_cons_self
      · refine Or.inr ⟨?_, h6⟩
        intro r hr
        rcases List.mem_cons.1 hr with rfl | hr
        · exact fun e => h5 e.symm
        · exact h3 r hr

/-- With no reference named, the pairs of the data object are all pairs of sites. -/
theorem data_pairs {x : Ext} {ts : List (ι × List (Option ℝ))} {pos : List (ι × Vec)} {method backend : String} {options : Option Dict}
    {s θ : Option ℝ} {d : WindspeedData ι} (hout : computeCmvFull x ts pos .none method backend options = .ok (s, θ, d)) :
    d.allpairs = some (combosRepl (pos.map Prod.fst)) := by
  unfold computeCmvFull at hout
  cases hc : (computeCmv x ts pos .none method backend options).1 with
  | error e => rw [hc] at hout; cases hout
  | ok out =>
    rw [hc] at hout
    cases hout
    obtain ⟨stats, o, hprep, -, hfin, -⟩ := computeCmv_ok hc
    have hrow := rows_stats x method.toLower o stats
    rw [← hfin] at hrow
    have hall : getPairs (pos.map Prod.fst) (some (RefArg.none.ids (pos.map Prod.fst))) true = combosRepl (pos.map Prod.fst) := by
      unfold getPairs
      simp only [if_true]
      rw [List.filter_eq_self]
      rintro p hp
      exact decide_eq_true (Or.inl (mem_combosRepl_mem hp).1)
    unfold prepare at hprep
    simp only [hall] at hprep
    split_ifs at hprep
    rw [mapM_forall₂] at hprep
    have hp : stats.map (fun r => (r.a, r.b)) = combosRepl (pos.map Prod.fst) := by
      generalize combosRepl (pos.map Prod.fst) = ps at hprep
      clear hrow hfin
      induction hprep with
      | nil => rfl
      | cons h _ ih => rw [List.map_cons, ih, (stat_fields h).1]
    rw [← hp, ← hrow, List.map_map]
    unfold dataOf
    split_ifs <;> rfl

/-- C197: if `compute_cmv` finds at least two GOOD pairs, the lag plotted for a site is the delay of its series after the one of the reference
sensor: as computed, if the reference comes first in the table of positions, and with the sign changed, if it comes later.  The lag of the
reference is zero. -/
theorem C197_lags (x : Ext) (ts : List (ι × List (Option ℝ))) (pos : List (ι × Vec)) (hn : (pos.map Prod.fst).Nodup) (ht : (ts.map Prod.fst).Nodup)
    (method backend : String) (options : Option Dict) (s θ : Option ℝ) (d : WindspeedData ι)
    (hout : computeCmvFull x ts pos .none method backend options = .ok (s, θ, d)) (flags : List Flag) (hfl : d.pairFlag = some flags)
    (h2 : 2 ≤ flags.count .good) (ref : ι) (hr : ref ∈ pos.map Prod.fst) :
    ∃ m, lagMap (pos.map Prod.fst) d ref = .ok m ∧ m.map Prod.fst = pos.map Prod.fst ∧ (ref, some 0) ∈ m ∧
      ∀ p sr sp, (ref, sr) ∈ ts → (p, sp) ∈ ts →
        ([ref, p].Sublist (pos.map Prod.fst) → (p, (x.delays backend.toLower sr sp).1) ∈ m) ∧
        ([p, ref].Sublist (pos.map Prod.fst) → (p, (x.delays backend.toLower sp sr).1.map fun t => -t) ∈ m) := by
  obtain ⟨-, -, -, pairs, lags, corrs, dists, hp, hl, -, -, hlen, -, -, -, hdel⟩ :=
    C163_data_object_partial x ts pos .none method backend options s θ d hout flags hfl h2
  rw [data_pairs hout] at hp
  cases hp
  set ids := pos.map Prod.fst with hids
  have huniq : ∀ {i : ι} {u w : List (Option ℝ)}, (i, u) ∈ ts → (i, w) ∈ ts → u = w := fun hu hw =>
    (Prod.mk.inj (List.inj_on_of_nodup_map ht hu hw rfl)).2
  -- the entries of the list
  set l := ((combosRepl ids).zip lags).filterMap (refLag ref) with hl'
  have hzip : ∀ a b v, ((a, b), v) ∈ (combosRepl ids).zip lags → (a, b) ∈ combosRepl ids ∧
      ∃ sa sb, (a, sa) ∈ ts ∧ (b, sb) ∈ ts ∧ v = (x.delays backend.toLower sa sb).1 := by
    intro a b v h
    obtain ⟨n, hn'⟩ := List.mem_iff_getElem?.1 h
    rw [List.getElem?_zip_eq_some] at hn'
    obtain ⟨sa, sb, pa, pb, h1, h2, -, -, h3, -⟩ := hdel n a b hn'.1
    refine ⟨List.mem_of_getElem? hn'.1, sa, sb, h1, h2, ?_⟩
    have := hn'.2
    simp only at this
    rw [h3] at this
    exact (Option.some.inj this).symm
  have hzip' : ∀ a b sa sb, (a, b) ∈ combosRepl ids → (a, sa) ∈ ts → (b, sb) ∈ ts →
      ((a, b), (x.delays backend.toLower sa sb).1) ∈ (combosRepl ids).zip lags := by
    intro a b sa sb h ha hb
    obtain ⟨n, hn'⟩ := List.mem_iff_getElem?.1 h
    obtain ⟨sa', sb', pa, pb, h1, h2, -, -, h3, -⟩ := hdel n a b hn'
    rw [huniq h1 ha, huniq h2 hb] at h3
    exact List.mem_iff_getElem?.2 ⟨n, by rw [List.getElem?_zip_eq_some]; exact ⟨hn', h3⟩⟩
  have hnot : ∀ a b, a ≠ b → (a, b) ∈ combosRepl ids → (b, a) ∉ combosRepl ids := by
    intro a b hab h1 h2
    have hg : getPairs ids none true = combosRepl ids := by simp [getPairs]
    exact hab ((C25_distinct ids hn none true).2 a b (hg ▸ h1) (hg ▸ h2))
  have hmem : ∀ p w, (p, w) ∈ l → p ∈ ids ∧ (p ≠ ref → ∀ sr sp, (ref, sr) ∈ ts → (p, sp) ∈ ts →
      ((ref, p) ∈ combosRepl ids → w = (x.delays backend.toLower sr sp).1) ∧
      ((p, ref) ∈ combosRepl ids → w = (x.delays backend.toLower sp sr).1.map fun t => -t)) := by
    intro p w h
    obtain ⟨⟨⟨a, b⟩, v⟩, h1, h2⟩ := List.mem_filterMap.1 h
    obtain ⟨h3, sa, sb, h4, h5, h6⟩ := hzip a b v h1
    unfold refLag at h2
    simp only at h2
    split_ifs at h2 with c1 c2
    · cases h2
      subst c2
      refine ⟨(mem_combosRepl_mem h3).2, fun hne sr sp hsr hsp => ⟨fun _ => ?_, fun h7 => absurd h7 (hnot _ _ (Ne.symm hne) h3)⟩⟩
      rw [h6, huniq h4 hsr, huniq h5 hsp]
    · cases h2
      have c3 : ref = b := c1.resolve_left c2
      subst c3
      refine ⟨(mem_combosRepl_mem h3).1, fun hne sr sp hsr hsp => ⟨fun h7 => absurd h7 (hnot _ _ hne h3), fun _ => ?_⟩⟩
      rw [h6, huniq h4 hsp, huniq h5 hsr]
  have hin : ∀ p ∈ l, p.1 ∈ ids := fun p hp => (hmem p.1 p.2 hp).1
  have hk0 : (ids.map fun i => ((i, some 0) : ι × Option ℝ)).map Prod.fst = ids := by rw [List.map_map]; simp [Function.comp_def]
  obtain ⟨hk, hf⟩ := fold_setLag l (ids.map fun i => (i, some 0)) (by rw [hk0]; exact hin)
  rw [hk0] at hk
  have hr' : ref ∈ (l.foldl (fun c p => setLag c p.1 p.2) (ids.map fun i => ((i, some 0) : ι × Option ℝ))).map Prod.fst := by rw [hk]; exact hr
  refine ⟨_, ?_, (setLag_keys (some 0) hr').trans hk, (mem_setLag hr').2 (Or.inl ⟨rfl, rfl⟩), ?_⟩
  · unfold lagMap
    rw [data_pairs hout, hl]
    simp only
    rw [if_pos hin]
  intro p sr sp hsr hsp
  -- the row of another site
  have hval : p ≠ ref → p ∈ ids → (∃ v, (p, v) ∈ l) → ∃ w, (p, w) ∈ l ∧
      (p, w) ∈ l.foldl (fun c p => setLag c p.1 p.2) (ids.map fun i => ((i, some 0) : ι × Option ℝ)) := by
    intro hne hp ⟨v, hv⟩
    rw [← hk] at hp
    obtain ⟨⟨p', w⟩, hw, rfl⟩ := List.mem_map.1 hp
    rcases hf _ _ hw with h | ⟨h, -⟩
    · exact ⟨w, h, hw⟩
    · exact absurd rfl (h _ hv)
  constructor
  · intro hsub
    have hne : ref ≠ p := by
      have := hsub.nodup hn
      simpa using this
    have hc : (ref, p) ∈ combosRepl ids := mem_combosRepl.2 (Or.inr hsub)
    have hv : (p, (x.delays backend.toLower sr sp).1) ∈ l :=
      List.mem_filterMap.2 ⟨_, hzip' ref p sr sp hc hsr hsp, by simp [refLag]⟩
    obtain ⟨w, hw1, hw2⟩ := hval hne.symm (mem_combosRepl_mem hc).2 ⟨_, hv⟩
    rw [((hmem p w hw1).2 hne.symm sr sp hsr hsp).1 hc] at hw2
    exact (mem_setLag hr').2 (Or.inr ⟨hne.symm, hw2⟩)
  · intro hsub
    have hne : p ≠ ref := by
      have := hsub.nodup hn
      simpa using this
    have hc : (p, ref) ∈ combosRepl ids := mem_combosRepl.2 (Or.inr hsub)
    have hv : (p, (x.delays backend.toLower sp sr).1.map fun t => -t) ∈ l :=
      List.mem_filterMap.2 ⟨_, hzip' p ref sp sr hc hsp hsr, by simp [refLag, hne.symm]⟩
    obtain ⟨w, hw1, hw2⟩ := hval hne (mem_combosRepl_mem hc).1 ⟨_, hv⟩
    rw [((hmem p w hw1).2 hne sr sp hsr hsp).2 hc] at hw2
    exact (mem_setLag hr').2 (Or.inr ⟨hne, hw2⟩)

/-- Of two different elements of a list one comes first. -/
theorem sublist_either {l : List ι} {a b : ι} (ha : a ∈ l) (hb : b ∈ l) (hab : a ≠ b) : [a, b].Sublist l ∨ [b, a].Sublist l := by
  induction l with
  | nil => simp at ha
  | cons x xs ih =>
    rw [List.cons_sublist_cons', List.cons_sublist_cons', List.singleton_sublist, List.singleton_sublist]
    rcases List.mem_cons.1 ha with rfl | ha' <;> rcases List.mem_cons.1 hb with rfl | hb'
    · exact absurd rfl hab
    · exact Or.inl (Or.inr ⟨rfl, hb'⟩)
    · exact Or.inr (Or.inr ⟨rfl, ha'⟩)
    · rcases ih ha' hb' with h | h
      · exact Or.inl (Or.inl h)
      · exact Or.inr (Or.inl h)

/-- C197: for a pattern that moves with velocity `V` over the sites the map shows, at every site, the time the pattern takes from the
reference to the site: their difference along the motion divided by the speed, negative upwind. -/
theorem C197_travel_time (x : Ext) (nanD : List (Option ℝ) → List (Option ℝ) → Option ℝ) (dt : ℝ) (hdt : 0 < dt)
    (hx : ∀ a b, x.delays "xcorr" a b = xcorrDelays nanD dt a b) (n : ℕ) (hn0 : 0 < n) (V : Vec) (q : ℤ → ℝ) (m : ι → ℤ) (c : ι → ℝ)
    (pos : List (ι × Vec)) (hn : (pos.map Prod.fst).Nodup) (ts : List (ι × List (Option ℝ))) (ht : (ts.map Prod.fst).Nodup)
    (hf : FrozenPattern n dt V q m c pos ts) (method backend : String) (hb : backend.toLower = "xcorr") (options : Option Dict) (s θ : Option ℝ)
    (d : WindspeedData ι) (hout : computeCmvFull x ts pos .none method backend options = .ok (s, θ, d)) (flags : List Flag)
    (hfl : d.pairFlag = some flags) (h2 : 2 ≤ flags.count .good) (ref : ι) (pr : Vec) (hr : (ref, pr) ∈ pos) :
    ∃ lag, lagMap (pos.map Prod.fst) d ref = .ok lag ∧ lag.map Prod.fst = pos.map Prod.fst ∧
      ∀ p pp, (p, pp) ∈ pos → (p, some (((pp.1 - pr.1) * V.1 + (pp.2 - pr.2) * V.2) / (V.1 ^ 2 + V.2 ^ 2))) ∈ lag := by
  have hr' : ref ∈ pos.map Prod.fst := List.mem_map.2 ⟨_, hr, rfl⟩
  obtain ⟨lag, h1, h3, h4, h5⟩ := C197_lags x ts pos hn ht method backend options s θ d hout flags hfl h2 ref hr'
  refine ⟨lag, h1, h3, ?_⟩
  intro p pp hp
  have hp' : p ∈ pos.map Prod.fst := List.mem_map.2 ⟨_, hp, rfl⟩
  obtain ⟨t0, harr⟩ := hf.arrival
  have e : ((pp.1 - pr.1) * V.1 + (pp.2 - pr.2) * V.2) / (V.1 ^ 2 + V.2 ^ 2) = ((m p - m ref : ℤ) : ℝ) * dt := by
    have a1 := harr _ hp
    have a2 := harr _ hr
    simp only at a1 a2
    push_cast
    rw [sub_mul (m p : ℝ), a1, a2]
    ring
  rw [e]
  by_cases hpr : p = ref
  · subst hpr
    simpa using h4
  obtain ⟨sr, hsr⟩ : ∃ sr, (ref, sr) ∈ ts := by
    obtain ⟨r, h, e⟩ := List.mem_map.1 (hf.series ref hr')
    exact ⟨r.2, by rw [← e]; exact h⟩
  obtain ⟨sp, hsp⟩ : ∃ sp, (p, sp) ∈ ts := by
    obtain ⟨r, h, e⟩ := List.mem_map.1 (hf.series p hp')
    exact ⟨r.2, by rw [← e]; exact h⟩
  obtain ⟨g1, g2⟩ := h5 _ sr sp hsr hsp
  have er := hf.recorded _ hsr
  have ep := hf.recorded _ hsp
  simp only at er ep
  have hpos : ∀ r ∈ ts, 0 < ∑ k ∈ Finset.range n, q (k - m r.1) ^ 2 := by
    intro r hr
    have := hf.strong r hr
    have hn' : (0 : ℝ) < n := by exact_mod_cast hn0
    have h0 : (0 : ℝ) < 0.001 ^ 2 * n := by positivity
    linarith
  rcases sublist_either hr' hp' (Ne.symm hpr) with h | h
  · have := g1 h
    rw [hb, hx, er, ep, xcorrDelays_record nanD dt hdt n q _ _ _ _ (hf.inside _ hsr) (hf.inside _ hsp) (hf.balanced _ hsr) (hpos _ hsr)] at this
    exact this
  · have := g2 h
    rw [hb, hx, er, ep, xcorrDelays_record nanD dt hdt n q _ _ _ _ (hf.inside _ hsp) (hf.inside _ hsr) (hf.balanced _ hsp) (hpos _ hsp)] at this
    have e2 : ((m p - m ref : ℤ) : ℝ) * dt = -(((m ref - m p : ℤ) : ℝ) * dt) := by push_cast; ring
    rw [e2]
    exact this

/-- C197: with fewer than two GOOD pairs the program stops with a `TypeError` instead of the map. -/
theorem C197_no_motion (x : Ext) (ts : List (ι × List (Option ℝ))) (pos : List (ι × Vec)) (ref' : RefArg ι) (method backend : String) (options : Option Dict)
    (s θ : Option ℝ) (d : WindspeedData ι) (hout : computeCmvFull x ts pos ref' method backend options = .ok (s, θ, d)) (flags : List Flag)
    (hfl : d.pairFlag = some flags) (h2 : flags.count .good < 2) (ref : ι) : Raises (lagMap (pos.map Prod.fst) d ref) .typeError := by
  unfold computeCmvFull at hout
  cases hc : (computeCmv x ts pos ref' method backend options).1 with
  | error e => rw [hc] at hout; cases hout
  | ok out =>
    rw [hc] at hout
    cases hout
    obtain ⟨-, hlen⟩ := flags_good x _ out flags hfl
    unfold Raises lagMap dataOf
    rw [if_pos (by omega)]

/-- The hypotheses of C197 hold for three sites over which a pulse moves. -/
theorem three_full (x : Ext) (hls : ExactLsq x.leastsq) (nanD : List (Option ℝ) → List (Option ℝ) → Option ℝ)
    (hx : ∀ a b, x.delays "xcorr" a b = xcorrDelays nanD 1 a b) :
    ∃ θ d flags, computeCmvFull x threeSeries threeSites .none "gagne" "xcorr" none = .ok (some (magnitude (5, 5)), θ, d) ∧ d.pairFlag = some flags ∧
      2 ≤ flags.count .good := by
  obtain ⟨out, h1, h2, -⟩ := C135_gagne_from_series x hls nanD 1 one_pos hx 3 (by norm_num) (5, 5) (by simp) pulse arrives (fun _ => 0.6)
    threeSites (by simp [threeSites]) threeSeries three_frozen .none "gagne" "xcorr" (by decide +kernel) (by decide +kernel) none (by simp)
    (by
      intro r hr
      rcases threeSeries_mem hr with h | h | h <;> rw [h]
      · exact ⟨0, by norm_num, by norm_num [optionOf, dictGet?, pulse, arrives]⟩
      · exact ⟨1, by norm_num, by norm_num [optionOf, dictGet?, pulse, arrives]⟩
      · exact ⟨1, by norm_num, by norm_num [optionOf, dictGet?, pulse, arrives]⟩)
    0 1 0 2 (0, 0) (10, 0) (0, 0) (0, 10) (by simp [threeSites]) (by simp [threeSites]) (by simp [threeSites]) (by simp [threeSites])
    (Or.inl (by simp [IsRef])) (Or.inl (by simp [IsRef])) (by simp [arrives]) (by simp [arrives])
    (by simp [Independent])
  have hd : (dataOf x "gagne".toLower out).pairFlag = some (out.rows.map Prod.snd) := by
    unfold dataOf
    split_ifs <;> rfl
  refine ⟨out.angle, dataOf x "gagne".toLower out, out.rows.map Prod.snd, ?_, hd, ?_⟩
  · unfold computeCmvFull
    rw [h1, ← h2]
    rfl
  · by_contra hlt
    have hc : (out.rows.countP fun r => r.2 = .good) ≤ 1 := by
      have := (flags_good x _ out _ hd).2
      rw [List.count, List.countP_map] at hlt
      have e : (out.rows.countP fun r => r.2 = .good) = out.rows.countP ((fun f : Flag => f == .good) ∘ Prod.snd) := by
        refine List.countP_congr fun r _ => ?_
        simp
      omega
    have := ((C31_null_result x threeSeries threeSites .none "gagne" "xcorr" none out h1).2 hc).1
    rw [h2, Option.some.injEq] at this
    unfold magnitude at this
    have h50 : (0 : ℝ) < Real.sqrt (5 ^ 2 + 5 ^ 2) := Real.sqrt_pos.2 (by norm_num)
    simp only at this
    linarith

/-- In this case the map relative to the first site shows the pulse one second later at the two others. -/
example (x : Ext) (hls : ExactLsq x.leastsq) (nanD : List (Option ℝ) → List (Option ℝ) → Option ℝ) (hx : ∀ a b, x.delays "xcorr" a b = xcorrDelays nanD 1 a b) :
    ∃ s θ d lag, computeCmvFull x threeSeries threeSites .none "gagne" "xcorr" none = .ok (s, θ, d) ∧ lagMap [0, 1, 2] d 0 = .ok lag ∧ (1, some 1) ∈ lag := by
  obtain ⟨θ, d, flags, h1, h2, h3⟩ := three_full x hls nanD hx
  obtain ⟨lag, h4, -, h5⟩ := C197_travel_time x nanD 1 one_pos hx 3 (by norm_num) (5, 5) pulse arrives (fun _ => 0.6) threeSites (by simp [threeSites])
    threeSeries (by simp [threeSeries]) three_frozen "gagne" "xcorr" (by decide +kernel) none _ _ d h1 flags h2 h3 0 (0, 0) (by simp [threeSites])
  refine ⟨_, θ, d, lag, h1, h4, ?_⟩
  have := h5 1 (10, 0) (by simp [threeSites])
  norm_num at this
  exact this

/-! ## C198 -/

/-- The data in other units: every sample multiplied by `c`. -/
noncomputable def inUnits (c : ℝ) (ts : List (ι × List (Option ℝ))) : List (ι × List (Option ℝ)) :=
  ts.map fun r => (r.1, r.2.map fun v => v.map fun a => c * a)

omit [DecidableEq ι] in
theorem hourlyMax_units (c : ℝ) (hc : 0 < c) (ts : List (ι × List (Option ℝ))) : hourlyMax (inUnits c ts) = (hourlyMax ts).map fun h => c * h := by
  unfold hourlyMax inUnits
  rw [List.map_map]
  have e : ((fun r : ι × List (Option ℝ) => Stats.quantileLin 0.95 (r.2.filterMap id)) ∘ fun r : ι × List (Option ℝ) => (r.1, r.2.map fun v => v.map fun a => c * a)) =
      fun r => (Stats.quantileLin 0.95 (r.2.filterMap id)).map fun h : ℝ => c * h := by
    funext r
    simp only [Function.comp]
    have := CloudMore.quantile_affine hc 0 (q := 0.95) (by norm_num) (by norm_num) (r.2.filterMap id)
    simp only [add_zero] at this
    rw [← this]
    congr 1
    rw [List.filterMap_map, List.map_filterMap]
    rfl
  rw [e]
  generalize ts = l
  have e2 : (l.map fun r => (Stats.quantileLin 0.95 (r.2.filterMap id)).map fun h : ℝ => c * h) =
      (l.map fun r => Stats.quantileLin 0.95 (r.2.filterMap id)).map fun o : Option ℝ => o.map fun h : ℝ => c * h := by
    rw [List.map_map]; rfl
  rw [e2]
  generalize (l.map fun r => Stats.quantileLin 0.95 (r.2.filterMap id)) = os
  unfold Stats.pdMean
  have e3 : (os.map fun o : Option ℝ => o.map fun h : ℝ => c * h).filterMap id = (os.filterMap id).map fun h : ℝ => c * h := by
    rw [List.filterMap_map, List.map_filterMap]
    rfl
  rw [e3]
  unfold meanO mean
  rw [List.length_map, List.sum_map_mul_left, List.map_id']
  by_cases h : os.filterMap id = []
  · rw [if_pos h, if_pos (by rw [h]; rfl)]; rfl
  · rw [if_neg h, if_neg (by simpa using h), mul_div_assoc]; rfl

omit [DecidableEq ι] in
/-- C198: the normalised data do not depend on the units of the data. -/
theorem C198_units (c : ℝ) (hc : 0 < c) (ts : List (ι × List (Option ℝ))) : normaliseTs (inUnits c ts) = normaliseTs ts := by
  unfold normaliseTs
  rw [hourlyMax_units c hc ts]
  unfold inUnits
  rw [List.map_map]
  refine List.map_congr_left fun r _ => ?_
  simp only [Function.comp, List.map_map, Prod.mk.injEq, true_and]
  refine List.map_congr_left fun v _ => ?_
  simp only [Function.comp]
  cases v with
  | none => rfl
  | some a =>
    cases hourlyMax ts with
    | none => rfl
    | some h =>
      simp only [Option.map_some, Option.bind_some, Option.some.injEq]
      rw [mul_div_mul_left _ _ hc.ne']

omit [DecidableEq ι] in
/-- The normalised data are the data in the units of their level. -/
theorem normalise_units (ts : List (ι × List (Option ℝ))) (h : ℝ) (hh : hourlyMax ts = some h) : normaliseTs ts = inUnits h⁻¹ ts := by
  unfold normaliseTs inUnits
  refine List.map_congr_left fun r _ => ?_
  simp only [Prod.mk.injEq, true_and]
  refine List.map_congr_left fun v _ => ?_
  rw [hh]
  cases v with
  | none => rfl
  | some a =>
    simp only [Option.map_some, Option.bind_some, Option.some.injEq]
    rw [div_eq_inv_mul]

omit [DecidableEq ι] in
/-- C198: the normalised data have level one (if the level of the data is positive): the mean over the sensors of their 0.95-quantiles is 1. -/
theorem C198_level (ts : List (ι × List (Option ℝ))) (h : ℝ) (hh : hourlyMax ts = some h) (hpos : 0 < h) : hourlyMax (normaliseTs ts) = some 1 := by
  rw [normalise_units ts h hh, hourlyMax_units h⁻¹ (inv_pos.2 hpos) ts, hh, Option.map_some, inv_mul_cancel₀ hpos.ne']

/-- Two sensors with constant currents 2 and 4 have level 3. -/
example : hourlyMax [((0 : ℕ), [some 2, none]), (1, [some 4, some 4])] = some 3 := by
  unfold hourlyMax Stats.pdMean
  have e1 : Stats.quantileLin 0.95 [2] = some 2 := by
    rw [Stats.quantileLin_eq, if_neg (by simp)]
    norm_num [Stats.interpAt, Stats.srt]
  have e2 : Stats.quantileLin 0.95 [4, 4] = some 4 := by
    rw [Stats.quantileLin_eq, if_neg (by simp)]
    norm_num [Stats.interpAt, Stats.srt]
  simp [e1, e2, meanO, mean]
  norm_num

/-! ## C199 -/

/-- The options for data in units `c` times as small: all documented, `ktlim` converted, the others the same. -/
def KtlimScaled (c : ℝ) (method : String) (options options' : Option Dict) : Prop :=
  (∀ kv ∈ options.getD [], kv.1 ∈ (documented method).map Prod.fst) ∧ (∀ kv ∈ options'.getD [], kv.1 ∈ (documented method).map Prod.fst) ∧
  optionOf options' "ktlim" 0.4 = c * optionOf options "ktlim" 0.4 ∧
  (method = "jamaly" → optionOf options' "var_s_lim" 0.05 = optionOf options "var_s_lim" 0.05 ∧ optionOf options' "mincorr" 0.8 = optionOf options "mincorr" 0.8 ∧
    optionOf options' "minvelocity" 0 = optionOf options "minvelocity" 0 ∧ optionOf options' "maxvelocity" 70 = optionOf options "maxvelocity" 70)

/-- A series in other units. -/
noncomputable def sigUnits (c : ℝ) (s : List (Option ℝ)) : List (Option ℝ) := s.map fun v => v.map fun a => c * a

theorem valid_units (c : ℝ) (s : List (Option ℝ)) : valid (sigUnits c s) = (valid s).map fun a => c * a := by
  unfold valid sigUnits
  rw [List.filterMap_map, List.map_filterMap]
  rfl

theorem mem_units {c : ℝ} (hc : c ≠ 0) {s : List (Option ℝ)} {a : ℝ} : some (c * a) ∈ sigUnits c s ↔ some a ∈ s := by
  unfold sigUnits
  rw [List.mem_map]
  constructor
  · rintro ⟨v, hv, e⟩
    cases v with
    | none => cases e
    | some b =>
      have : c * b = c * a := Option.some.inj e
      rw [mul_left_cancel₀ hc this] at hv
      exact hv
  · intro h
    exact ⟨_, h, rfl⟩

theorem max_units {c : ℝ} (hc : 0 < c) {s : List (Option ℝ)} {m : ℝ} : IsMaxOf (c * m) (sigUnits c s) ↔ IsMaxOf m s := by
  unfold IsMaxOf
  rw [mem_units hc.ne']
  refine and_congr_right fun _ => ⟨fun h x hx => ?_, fun h x hx => ?_⟩
  · exact le_of_mul_le_mul_left (h _ ((mem_units hc.ne').2 hx)) hc
  · have e : x = c * (x / c) := by field_simp
    rw [e] at hx ⊢
    exact mul_le_mul_of_nonneg_left (h _ ((mem_units hc.ne').1 hx)) hc.le

theorem maxBelow_units {c : ℝ} (hc : 0 < c) {s : List (Option ℝ)} {l : ℝ} : MaxBelow (sigUnits c s) (c * l) ↔ MaxBelow s l := by
  unfold MaxBelow
  constructor
  · rintro ⟨m, h1, h2⟩
    have e : m = c * (m / c) := by field_simp
    rw [e] at h1 h2
    exact ⟨m / c, (max_units hc).1 h1, lt_of_mul_lt_mul_left h2 hc.le⟩
  · rintro ⟨m, h1, h2⟩
    exact ⟨c * m, (max_units hc).2 h1, mul_lt_mul_of_pos_left h2 hc⟩

theorem avg_units (c : ℝ) (s : List (Option ℝ)) : avgOf (sigUnits c s) = c * avgOf s := by
  have := valid_units c s
  unfold valid at this
  unfold avgOf
  rw [this, List.length_map, List.sum_map_mul_left, List.map_id', mul_div_assoc]

theorem lowVariation_units {c : ℝ} (hc : 0 < c) {s : List (Option ℝ)} {l : ℝ} : LowVariation (sigUnits c s) l ↔ LowVariation s l := by
  unfold LowVariation
  constructor
  · rintro ⟨m, h1, h2, h3⟩
    have e : m = c * (m / c) := by field_simp
    rw [e] at h1 h2 h3
    rw [avg_units, mul_div_mul_left _ _ hc.ne'] at h3
    exact ⟨m / c, (max_units hc).1 h1, (mul_ne_zero_iff.1 h2).2, h3⟩
  · rintro ⟨m, h1, h2, h3⟩
    refine ⟨c * m, (max_units hc).2 h1, mul_ne_zero hc.ne' h2, ?_⟩
    rw [avg_units, mul_div_mul_left _ _ hc.ne']
    exact h3

/-- The statistics of a pair in other units. -/
noncomputable def statUnits (c : ℝ) (p : PairStat ι) : PairStat ι := { p with sigA := sigUnits c p.sigA, sigB := sigUnits c p.sigB }

theorem flag_units {c : ℝ} (hc : 0 < c) (method : String) (o o' : Dict) (p : PairStat ι) (hk : opt o' "ktlim" = c * opt o "ktlim")
    (hj : method = "jamaly" → opt o' "var_s_lim" = opt o "var_s_lim" ∧ opt o' "mincorr" = opt o "mincorr" ∧ opt o' "minvelocity" = opt o "minvelocity" ∧
      opt o' "maxvelocity" = opt o "maxvelocity")
    (ha : StdBelow (sigUnits c p.sigA) 0.001 ↔ StdBelow p.sigA 0.001) (hb : StdBelow (sigUnits c p.sigB) 0.001 ↔ StdBelow p.sigB 0.001) :
    pairFlag method o' (statUnits c p) = pairFlag method o p := by
  have hch : checks method o' (statUnits c p) = checks method o p := by
    unfold checks statUnits
    simp only [ha, hb, hk, maxBelow_units hc, lowVariation_units hc]
    by_cases hm : method = "jamaly"
    · obtain ⟨j1, j2, j3, j4⟩ := hj hm
      simp only [hm, if_true, j1, j2, j3, j4]
    · simp only [hm, if_false]
  have h1 := C27_last_failing method o' (statUnits c p)
  rw [hch] at h1
  exact lastFailing_unique h1 (C27_last_failing method o p)

theorem stat_units (x : Ext) (c : ℝ) (ts : List (ι × List (Option ℝ))) (pos : List (ι × Vec)) (b : String)
    (hd : ∀ u v, x.delays b (sigUnits c u) (sigUnits c v) = x.delays b u v) (p : ι × ι) :
    statOf x (inUnits c ts) pos b p = (statOf x ts pos b p).map (statUnits c) := by
  unfold statOf
  have e : ∀ k, dictGet? (inUnits c ts) k = (dictGet? ts k).map (sigUnits c) := fun k => dictGet?_map_val ts (sigUnits c) k
  rw [e, e]
  cases dictGet? ts p.1 <;> cases dictGet? ts p.2 <;> cases dictGet? pos p.1 <;> cases dictGet? pos p.2 <;>
    simp only [Option.map_none, Option.map_some, Except.map, statUnits, hd]

theorem exceptMapM_map {α β γ : Type} (h : α → Except PyErr β) (g : β → γ) (l : List α) : (l.mapM fun a => (h a).map g) = (l.mapM h).map (List.map g) := by
  induction l with
  | nil => rfl
  | cons a l ih =>
    rw [List.mapM_cons, List.mapM_cons, ih]
    cases h a with
    | error e => rfl
    | ok b => cases l.mapM h <;> rfl

omit [DecidableEq ι] in
theorem goodPairs_units (c : ℝ) (rows : List (PairStat ι × Flag)) : goodPairs (rows.map fun r => (statUnits c r.1, r.2)) = goodPairs rows := by
  unfold goodPairs
  rw [List.filter_map, List.map_map]
  rfl

theorem finish_units {c : ℝ} (x : Ext) (method : String) (o o' : Dict) (stats : List (PairStat ι))
    (h : ∀ p ∈ stats, pairFlag method o' (statUnits c p) = pairFlag method o p) :
    (finish x method o' (stats.map (statUnits c))).rows = (finish x method o stats).rows.map (fun r => (statUnits c r.1, r.2)) ∧
    (finish x method o' (stats.map (statUnits c))).speed = (finish x method o stats).speed ∧
    (finish x method o' (stats.map (statUnits c))).angle = (finish x method o stats).angle ∧
    (finish x method o' (stats.map (statUnits c))).flag = (finish x method o stats).flag ∧
    (finish x method o' (stats.map (statUnits c))).dists = (finish x method o stats).dists := by
  have hrows : (stats.map (statUnits c)).map (fun p => (p, pairFlag method o' p)) =
      (stats.map fun p => (p, pairFlag method o p)).map fun r => (statUnits c r.1, r.2) := by
    rw [List.map_map, List.map_map]
    refine List.map_congr_left fun p hp => ?_
    simp only [Function.comp]
    rw [h p hp]
  have hsel : ∀ rows : List (PairStat ι × Flag), gagneSelect (rows.map fun r => (statUnits c r.1, r.2)) =
      ((gagneSelect rows).1, (gagneSelect rows).2.map fun r => (statUnits c r.1, r.2)) := by
    intro rows
    have hr : ∀ t (p : PairStat ι), reaches t (statUnits c p) = reaches t p := fun t p => rfl
    have hcnt : ∀ t, countGood t (rows.map fun r => (statUnits c r.1, r.2)) = countGood t rows := by
      intro t
      unfold countGood
      rw [List.countP_map]
      rfl
    unfold gagneSelect
    simp only [hcnt, List.map_map]
    congr 1
  unfold finish
  simp only [hrows]
  generalize (stats.map fun p => (p, pairFlag method o p)) = rows0
  have hs : (if method = "gagne" then gagneSelect (rows0.map fun r => (statUnits c r.1, r.2)) else (Flag.good, rows0.map fun r => (statUnits c r.1, r.2))) =
      ((if method = "gagne" then gagneSelect rows0 else (Flag.good, rows0)).1,
        (if method = "gagne" then gagneSelect rows0 else (Flag.good, rows0)).2.map fun r => (statUnits c r.1, r.2)) := by
    split_ifs
    · exact hsel rows0
    · rfl
  rw [hs]
  generalize (if method = "gagne" then gagneSelect rows0 else (Flag.good, rows0)) = sel
  simp only [goodPairs_units]
  by_cases hg : (goodPairs sel.2).length ≤ 1
  · simp only [if_pos hg, and_self]
  · simp only [if_neg hg, List.map_map, true_and]
    rfl

/-- C199 (the part that holds): instead of normalising the data one can convert `ktlim`, and gets the same speed, direction and data
object (or the same error), if the delays do not depend on the units and no series has a standard deviation below 0.001 in one of the two
units only. -/
theorem C199_scaled_partial (x : Ext) (c : ℝ) (hc : 0 < c) (ts : List (ι × List (Option ℝ))) (pos : List (ι × Vec)) (ref : RefArg ι) (method backend : String)
    (options options' : Option Dict) (hopt : KtlimScaled c method.toLower options options')
    (hd : ∀ u v, x.delays backend.toLower (sigUnits c u) (sigUnits c v) = x.delays backend.toLower u v)
    (hstd : ∀ r ∈ ts, StdBelow (sigUnits c r.2) 0.001 ↔ StdBelow r.2 0.001) :
    computeCmvFull x (inUnits c ts) pos ref method backend options' = computeCmvFull x ts pos ref method backend options := by
  have hprep : prepare x (inUnits c ts) pos ref method backend = (prepare x ts pos ref method backend).map (List.map (statUnits c)) := by
    unfold prepare
    simp only
    have e : (getPairs (pos.map Prod.fst) (some (ref.ids (pos.map Prod.fst))) true).mapM (statOf x (inUnits c ts) pos backend.toLower) =
        ((getPairs (pos.map Prod.fst) (some (ref.ids (pos.map Prod.fst))) true).mapM (statOf x ts pos backend.toLower)).map (List.map (statUnits c)) := by
      rw [← exceptMapM_map]
      congr 1
      funext p
      exact stat_units x c ts pos _ hd p
    rw [e]
    split_ifs <;> rfl
  cases hp : prepare x ts pos ref method backend with
  | error e =>
    have h1 : (computeCmv x ts pos ref method backend options).1 = .error e := by unfold computeCmv; rw [hp]
    have h2 : (computeCmv x (inUnits c ts) pos ref method backend options').1 = .error e := by unfold computeCmv; rw [hprep, hp]; rfl
    unfold computeCmvFull
    rw [h1, h2]
  | ok stats =>
    have hm : method.toLower = "jamaly" ∨ method.toLower = "gagne" := by
      unfold prepare at hp
      split_ifs at hp with h1
      simpa using h1
    obtain ⟨hk1, hk2, hkt, hj⟩ := hopt
    obtain ⟨o, ho, -⟩ := (C28_validation method.toLower hm options).1 hk1
    obtain ⟨o', ho', -⟩ := (C28_validation method.toLower hm options').1 hk2
    have hdoc : ("ktlim", (0.4 : ℝ)) ∈ documented method.toLower := by
      rcases hm with h | h <;> rw [h] <;> simp [documented]
    have hflag : ∀ p ∈ stats, pairFlag method.toLower o' (statUnits c p) = pairFlag method.toLower o p := by
      intro p hps
      obtain ⟨q, hq⟩ : ∃ q, statOf x ts pos backend.toLower q = .ok p := by
        unfold prepare at hp
        simp only at hp
        split_ifs at hp
        rw [mapM_forall₂] at hp
        exact forall_mem_right hp hps
      have hsig : ∃ a b, (q.1, a) ∈ ts ∧ (q.2, b) ∈ ts ∧ p.sigA = a ∧ p.sigB = b := by
        unfold statOf at hq
        split at hq
        · rename_i sa sb pa pb h1 h2 h3 h4
          cases hq
          exact ⟨sa, sb, dictGet?_mem h1, dictGet?_mem h2, rfl, rfl⟩
        · cases hq
      obtain ⟨a, b, ha, hb, ea, eb⟩ := hsig
      refine flag_units hc method.toLower o o' p ?_ ?_ (by rw [ea]; exact hstd _ ha) (by rw [eb]; exact hstd _ hb)
      · rw [opt_of_valid hm hk2 ho' hdoc, opt_of_valid hm hk1 ho hdoc, hkt]
      · intro hjm
        obtain ⟨j1, j2, j3, j4⟩ := hj hjm
        have hmem : ∀ {k : String} {v : ℝ}, (k, v) ∈ documented "jamaly" → (k, v) ∈ documented method.toLower := by
          intro k v h; rw [hjm]; exact h
        refine ⟨?_, ?_, ?_, ?_⟩
        · rw [opt_of_valid hm hk2 ho' (hmem (k := "var_s_lim") (v := 0.05) (by simp [documented])), opt_of_valid hm hk1 ho (hmem (k := "var_s_lim") (v := 0.05) (by simp [documented])), j1]
        · rw [opt_of_valid hm hk2 ho' (hmem (k := "mincorr") (v := 0.8) (by simp [documented])), opt_of_valid hm hk1 ho (hmem (k := "mincorr") (v := 0.8) (by simp [documented])), j2]
        · rw [opt_of_valid hm hk2 ho' (hmem (k := "minvelocity") (v := 0) (by simp [documented])), opt_of_valid hm hk1 ho (hmem (k := "minvelocity") (v := 0) (by simp [documented])), j3]
        · rw [opt_of_valid hm hk2 ho' (hmem (k := "maxvelocity") (v := 70) (by simp [documented])), opt_of_valid hm hk1 ho (hmem (k := "maxvelocity") (v := 70) (by simp [documented])), j4]
    obtain ⟨f1, f2, f3, f4, f5⟩ := finish_units (c := c) x method.toLower o o' stats hflag
    have h1 : (computeCmv x ts pos ref method backend options).1 = .ok (finish x method.toLower o stats) := by
      unfold computeCmv
      rw [hp]
      simp only [ho, Except.map]
    have h2 : (computeCmv x (inUnits c ts) pos ref method backend options').1 = .ok (finish x method.toLower o' (stats.map (statUnits c))) := by
      unfold computeCmv
      rw [hprep, hp]
      simp only [Except.map, ho']
    unfold computeCmvFull
    rw [h1, h2]
    simp only [Except.map]
    rw [f2, f3]
    congr 3
    unfold dataOf
    rw [f1, f2, f3, f4, f5, goodPairs_units]
    simp only [List.map_map]
    rfl

/-- The delays of cross-correlation do not depend on the units. -/
theorem xcorr_units (nanD : List (Option ℝ) → List (Option ℝ) → Option ℝ) (dt c : ℝ) (hc : 0 < c) (u v : List (Option ℝ))
    (hnan : nanD (sigUnits c u) (sigUnits c v) = nanD u v) : xcorrDelays nanD dt (sigUnits c u) (sigUnits c v) = xcorrDelays nanD dt u v := by
  have hn : ∀ s : List (Option ℝ), none ∈ sigUnits c s ↔ none ∈ s := by
    intro s
    unfold sigUnits
    rw [List.mem_map]
    constructor
    · rintro ⟨w, hw, e⟩
      cases w with
      | none => exact hw
      | some a => cases e
    · intro h; exact ⟨none, h, rfl⟩
  have hv : ∀ s : List (Option ℝ), PosAffine (s.filterMap id) ((sigUnits c s).filterMap id) := by
    intro s
    have := valid_units c s
    unfold valid at this
    rw [this]
    exact ⟨c, 0, hc, by simp⟩
  unfold xcorrDelays
  simp only [hn, hnan]
  rw [Corr.C41_delays dt [u.filterMap id] [(sigUnits c u).filterMap id] [v.filterMap id] [(sigUnits c v).filterMap id] "loop"
    (.cons (hv u) .nil) (.cons (hv v) .nil) rfl (Or.inl rfl)]

/-- C199 (the part that holds), for the demonstration: the motion from the normalised data with the default options is the motion from the raw
data with `ktlim` multiplied by their level, if no series has a standard deviation below 0.001 in one of the two only. -/
theorem C199_demo_partial (x : Ext) (nanD : List (Option ℝ) → List (Option ℝ) → Option ℝ) (dt : ℝ) (hx : ∀ a b, x.delays "xcorr" a b = xcorrDelays nanD dt a b)
    (hnan : ∀ c, 0 < c → ∀ u v, nanD (sigUnits c u) (sigUnits c v) = nanD u v) (ts : List (ι × List (Option ℝ))) (h : ℝ) (hh : hourlyMax ts = some h) (hpos : 0 < h)
    (hstd : ∀ r ∈ ts, StdBelow (sigUnits h⁻¹ r.2) 0.001 ↔ StdBelow r.2 0.001)
    (pos : List (ι × Vec)) (ref : RefArg ι) (method backend : String) (hm : method.toLower = "jamaly" ∨ method.toLower = "gagne") (hb : backend.toLower = "xcorr") :
    computeCmvFull x (normaliseTs ts) pos ref method backend none = computeCmvFull x ts pos ref method backend (some [("ktlim", 0.4 * h)]) := by
  rw [normalise_units ts h hh]
  refine C199_scaled_partial x h⁻¹ (inv_pos.2 hpos) ts pos ref method backend (some [("ktlim", 0.4 * h)]) none ⟨?_, by simp, ?_, ?_⟩ ?_ hstd
  · intro kv hkv
    simp only [Option.getD_some, List.mem_singleton] at hkv
    rw [hkv]
    rcases hm with e | e <;> rw [e] <;> simp [documented]
  · simp only [optionOf, dictGet?]
    simp
    field_simp
  · intro _
    simp [optionOf, dictGet?]
  · intro u v
    rw [hb, hx, hx]
    exact xcorr_units nanD dt _ (inv_pos.2 hpos) u v (hnan _ (inv_pos.2 hpos) u v)

theorem std_units {c : ℝ} (hc : 0 < c) {s : List (Option ℝ)} {l : ℝ} : StdBelow (sigUnits c s) (c * l) ↔ StdBelow s l := by
  have hv := valid_units c s
  unfold valid at hv
  unfold StdBelow
  rw [avg_units, hv, List.length_map, List.map_map]
  have e : ((s.filterMap id).map ((fun x => (x - c * avgOf s) ^ 2) ∘ fun a => c * a)).sum = c ^ 2 * ((s.filterMap id).map fun x => (x - avgOf s) ^ 2).sum := by
    rw [← List.sum_map_mul_left]
    congr 1
    refine List.map_congr_left fun a _ => ?_
    simp only [Function.comp]
    ring
  rw [e, mul_div_assoc, Real.sqrt_mul (by positivity), Real.sqrt_sq hc.le]
  refine and_congr ?_ (mul_lt_mul_iff_right₀ hc)
  constructor
  · rintro ⟨a, ha⟩
    refine ⟨a / c, (mem_units hc.ne').1 ?_⟩
    rw [mul_div_cancel₀ a hc.ne']
    exact ha
  · rintro ⟨a, ha⟩
    exact ⟨c * a, (mem_units hc.ne').2 ha⟩

/-- The hypotheses of C199 hold for the three series in units half as large. -/
example (x : Ext) (nanD : List (Option ℝ) → List (Option ℝ) → Option ℝ) (hx : ∀ a b, x.delays "xcorr" a b = xcorrDelays nanD 1 a b)
    (hnan : ∀ u v, nanD (sigUnits 2 u) (sigUnits 2 v) = nanD u v) :
    computeCmvFull x (inUnits 2 threeSeries) threeSites .none "gagne" "xcorr" (some [("ktlim", 0.8)]) = computeCmvFull x threeSeries threeSites .none "gagne" "xcorr" none := by
  have hg : "gagne".toLower = "gagne" := by decide +kernel
  have hb : "xcorr".toLower = "xcorr" := by decide +kernel
  refine C199_scaled_partial x 2 two_pos threeSeries threeSites .none "gagne" "xcorr" none (some [("ktlim", 0.8)]) ⟨by simp, ?_, ?_, ?_⟩ ?_ ?_
  · rw [hg]; simp [documented]
  · norm_num [optionOf, dictGet?]
  · rw [hg]; intro h; exact absurd h (by decide)
  · intro u v
    rw [hb, hx, hx]
    exact xcorr_units nanD 1 2 two_pos u v (hnan u v)
  · intro r hr
    have h1 : ¬ StdBelow r.2 0.001 := by
      rw [three_frozen.recorded r hr]
      exact record_std 3 (by norm_num) pulse _ _ (three_frozen.balanced r hr) (three_frozen.strong r hr)
    have h2 : ¬ StdBelow (sigUnits 2 r.2) 0.001 := by
      intro h
      rw [show (0.001 : ℝ) = 2 * 0.0005 by norm_num, std_units two_pos] at h
      exact h1 ⟨h.1, h.2.trans (by norm_num)⟩
    exact ⟨fun h => absurd h h2, fun h => absurd h h1⟩

/-- If no series reaches the fixed standard deviation, there is no motion. -/
theorem no_signal (x : Ext) (ts : List (ι × List (Option ℝ))) (hs : ∀ r ∈ ts, StdBelow r.2 0.001) (pos : List (ι × Vec)) (ref : RefArg ι) (method backend : String)
    (options : Option Dict) (out : Out ι) (h : (computeCmv x ts pos ref method backend options).1 = .ok out) : out.speed = some 0 := by
  refine ((C31_null_result x ts pos ref method backend options out h).2 ?_).1
  have hz : (out.rows.countP fun r => r.2 = .good) = 0 := by
    rw [List.countP_eq_zero]
    intro r hr hg
    simp only [decide_eq_true_eq] at hg
    obtain ⟨stats, o, hprep, -, hfin, -⟩ := computeCmv_ok h
    have hst : r.1 ∈ stats := by
      rw [← rows_stats x method.toLower o stats, ← hfin]
      exact List.mem_map.2 ⟨r, hr, rfl⟩
    have hpf : pairFlag method.toLower o r.1 = .good := by
      rw [hfin, finish_rows] at hr
      split_ifs at hr
      · unfold gagneSelect at hr
        simp only [List.map_map, List.mem_map] at hr
        obtain ⟨p, -, e⟩ := hr
        simp only [Function.comp] at e
        rw [← e] at hg ⊢
        simp only at hg ⊢
        split_ifs at hg <;> exact hg
      · obtain ⟨p, -, e⟩ := List.mem_map.1 hr
        rw [← e] at hg ⊢
        exact hg
    have hn := ((C26_good_iff method.toLower o r.1).1 hpf).2.1
    obtain ⟨q, hq⟩ : ∃ q, statOf x ts pos backend.toLower q = .ok r.1 := by
      unfold prepare at hprep
      simp only at hprep
      split_ifs at hprep
      rw [mapM_forall₂] at hprep
      exact forall_mem_right hprep hst
    unfold statOf at hq
    split at hq
    · rename_i sa sb pa pb h1 h2 h3 h4
      have e : r.1.sigA = sa := by
        have := Except.ok.inj hq
        rw [← this]
      rw [e] at hn
      exact hn (hs _ (dictGet?_mem h1))
    · cases hq
  omega

/-- C199 is violated: the limit 0.001 of the standard deviation is no option.  The motion (5, 5) of a pulse over three sites is found in the
data as they are, but not in units 1000 times as large, whatever `ktlim` is. -/
theorem C199_violated_units (x : Ext) (hls : ExactLsq x.leastsq) (nanD : List (Option ℝ) → List (Option ℝ) → Option ℝ)
    (hx : ∀ a b, x.delays "xcorr" a b = xcorrDelays nanD 1 a b) :
    (∃ θ d, computeCmvFull x threeSeries threeSites .none "gagne" "xcorr" none = .ok (some (magnitude (5, 5)), θ, d)) ∧
      ∀ k : ℝ, ∃ θ d, computeCmvFull x (inUnits 0.001 threeSeries) threeSites .none "gagne" "xcorr" (some [("ktlim", k)]) = .ok (some 0, θ, d) := by
  refine ⟨?_, ?_⟩
  · obtain ⟨θ, d, -, h, -⟩ := three_full x hls nanD hx
    exact ⟨θ, d, h⟩
  · intro k
    have hg : "gagne".toLower = "gagne" := by decide +kernel
    obtain ⟨-, -, -, h4⟩ := cmv_outcome x (inUnits 0.001 threeSeries) threeSites .none "gagne" "xcorr" (some [("ktlim", k)]) (Or.inr hg) (Or.inl (by decide +kernel))
    obtain ⟨out, hout⟩ := h4 ⟨0, by simp [threeSites], by simp [RefArg.ids, threeSites]⟩ (by simp [threeSites, threeSeries, inUnits])
      (by rw [hg]; simp [documented])
    have hs : out.speed = some 0 := by
      refine no_signal x _ ?_ threeSites .none "gagne" "xcorr" _ out hout
      intro r hr
      obtain ⟨r0, hr0, rfl⟩ := List.mem_map.1 hr
      have : StdBelow (sigUnits 0.001 r0.2) (0.001 * 1) := by
        refine (std_units (by norm_num)).2 ?_
        have hb := three_frozen.balanced r0 hr0
        refine ⟨?_, ?_⟩
        · rw [three_frozen.recorded r0 hr0]
          exact ⟨_, List.mem_map.2 ⟨0, by simp, rfl⟩⟩
        · rw [three_frozen.recorded r0 hr0, record_avg 3 (by norm_num) pulse _ _ hb, record_filterMap, wave_length, Real.sqrt_lt' (by norm_num), wave, List.map_map, Corr.sum_map_range]
          simp only [Function.comp, add_sub_cancel_left]
          rcases threeSeries_mem hr0 with h | h | h <;> rw [h] <;> simp [Finset.sum_range_succ, arrives, pulse] <;> norm_num
      rw [mul_one] at this
      exact this
    refine ⟨out.angle, dataOf x "gagne".toLower out, ?_⟩
    unfold computeCmvFull
    rw [hout, ← hs]
    rfl

end SST.Props.CmvDemo
