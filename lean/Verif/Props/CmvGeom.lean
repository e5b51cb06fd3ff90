import Verif.Props.CmvXcorr
import Verif.Proofs.CmvGeom
import Verif.Proofs.CmvTime
import Verif.Proofs.Remap

/-!
# Properties C154-C159: cloud motion in another system of coordinates

What happens to the result of `compute_cmv` when the positions are moved, turned or stretched, the time runs at another
speed or backwards, the rows are reordered or the sites renamed.
-/

namespace SST.Props.Cmv
open SST SST.Cmv SST.Spec SST.Spatial

variable {ι κ : Type} [DecidableEq ι] [DecidableEq κ]

/-- The options of the second call: all documented; the same limits, the velocity limits converted by the factor `f`. -/
def LimitsScaled (f : ℝ) (method : String) (options options' : Option Dict) : Prop :=
  (∀ kv ∈ options'.getD [], kv.1 ∈ (documented method).map Prod.fst) ∧
  optionOf options' "ktlim" 0.4 = optionOf options "ktlim" 0.4 ∧
  (method = "jamaly" → optionOf options' "var_s_lim" 0.05 = optionOf options "var_s_lim" 0.05 ∧ optionOf options' "mincorr" 0.8 = optionOf options "mincorr" 0.8 ∧
    optionOf options' "minvelocity" 0 = |f| * optionOf options "minvelocity" 0 ∧ optionOf options' "maxvelocity" 70 = |f| * optionOf options "maxvelocity" 70)

theorem mapM_forall₂ {α β : Type} {f : α → Except PyErr β} : ∀ {l : List α} {r : List β}, l.mapM f = .ok r ↔ List.Forall₂ (fun a b => f a = .ok b) l r := by
  intro l
  induction l with
  | nil =>
    intro r
    rw [List.mapM_nil, List.forall₂_nil_left_iff]
    constructor
    · intro h; cases h; rfl
    · rintro rfl; rfl
  | cons a l ih =>
    intro r
    rw [List.mapM_cons, List.forall₂_cons_left_iff]
    cases ha : f a with
    | error e =>
      constructor
      · intro h; cases h
      · rintro ⟨b, r', h, -⟩; cases h
    | ok b =>
      cases hl : l.mapM f with
      | error e =>
        constructor
        · intro h; cases h
        · rintro ⟨b', r', -, h, -⟩
          rw [← ih, hl] at h
          cases h
      | ok bs =>
        constructor
        · intro h; cases h
          exact ⟨b, bs, rfl, ih.1 hl, rfl⟩
        · rintro ⟨b', r', h1, h2, rfl⟩
          cases h1
          rw [← ih, hl] at h2
          cases h2
          rfl

/-- Related pairs have related statistics. -/
theorem prepare_related (x x' : Ext) (ts : List (ι × List (Option ℝ))) (ts' : List (κ × List (Option ℝ))) (pos : List (ι × Vec)) (pos' : List (κ × Vec))
    (ref : RefArg ι) (ref' : RefArg κ) (method backend : String) (stats : List (PairStat ι)) (h : prepare x ts pos ref method backend = .ok stats)
    (Q : ι × ι → κ × κ → Prop) (R : PairStat ι → PairStat κ → Prop)
    (hp : ∃ mid, List.Forall₂ Q (getPairs (pos.map Prod.fst) (some (ref.ids (pos.map Prod.fst))) true) mid ∧
      mid.Perm (getPairs (pos'.map Prod.fst) (some (ref'.ids (pos'.map Prod.fst))) true))
    (hs : ∀ p ∈ getPairs (pos.map Prod.fst) (some (ref.ids (pos.map Prod.fst))) true, ∀ q s, Q p q → statOf x ts pos backend.toLower p = .ok s →
      ∃ s', statOf x' ts' pos' backend.toLower q = .ok s' ∧ R s s') :
    ∃ mids stats', prepare x' ts' pos' ref' method backend = .ok stats' ∧ List.Forall₂ R stats mids ∧ mids.Perm stats' := by
  unfold prepare at h ⊢
  simp only at h ⊢
  split_ifs at h with h1 h2 h3
  rw [if_neg (not_not.2 h1), if_neg (not_not.2 h2)]
  obtain ⟨mid, hm1, hm2⟩ := hp
  have hne : getPairs (pos'.map Prod.fst) (some (ref'.ids (pos'.map Prod.fst))) true ≠ [] := by
    intro e
    rw [e, List.perm_nil] at hm2
    rw [hm2, List.forall₂_nil_right_iff] at hm1
    exact h3 hm1
  rw [if_neg hne]
  rw [mapM_forall₂] at h
  generalize getPairs (pos.map Prod.fst) (some (ref.ids (pos.map Prod.fst))) true = ps at *
  generalize getPairs (pos'.map Prod.fst) (some (ref'.ids (pos'.map Prod.fst))) true = ps' at *
  have aux : ∃ mids, List.Forall₂ (fun q s => statOf x' ts' pos' backend.toLower q = .ok s) mid mids ∧ List.Forall₂ R stats mids := by
    clear hm2 h3 hne
    induction hm1 generalizing stats with
    | nil => cases h; exact ⟨[], .nil, .nil⟩
    | cons hab _ ih =>
      cases h with
      | cons hb ht =>
        obtain ⟨s', e1, e2⟩ := hs _ List.mem_cons_self _ _ hab hb
        obtain ⟨mids, e3, e4⟩ := ih _ (fun p hp => hs p (List.mem_cons_of_mem _ hp)) ht
        exact ⟨s' :: mids, .cons e1 e3, .cons e2 e4⟩
  obtain ⟨mids, e1, e2⟩ := aux
  obtain ⟨stats', e3, e4⟩ := List.perm_comp_forall₂ hm2.symm e1
  exact ⟨mids, stats', mapM_forall₂.2 e3, e2, e4.symm⟩

/-- The general statement behind C155-C158. -/
theorem cmv_turned (x x' : Ext) {c k α : ℝ} (hc : c ≠ 0) (hk : k ≠ 0) (ts : List (ι × List (Option ℝ))) (ts' : List (κ × List (Option ℝ)))
    (pos : List (ι × Vec)) (pos' : List (κ × Vec)) (ref : RefArg ι) (ref' : RefArg κ) (method backend : String) (options options' : Option Dict) (out : Out ι)
    (hout : (computeCmv x ts pos ref method backend options).1 = .ok out) (hopt : LimitsScaled (k / c) method.toLower options options')
    (hfin : ∀ a b, (x.delays backend.toLower a b).2.1 ≠ none → (x.delays backend.toLower a b).1 ≠ none)
    (Q : ι × ι → κ × κ → Prop) (R : PairStat ι → PairStat κ → Prop) (hR : ∀ p p', R p p' → StatRel c k α p p')
    (hp : ∃ mid, List.Forall₂ Q (getPairs (pos.map Prod.fst) (some (ref.ids (pos.map Prod.fst))) true) mid ∧
      mid.Perm (getPairs (pos'.map Prod.fst) (some (ref'.ids (pos'.map Prod.fst))) true))
    (hs : ∀ p ∈ getPairs (pos.map Prod.fst) (some (ref.ids (pos.map Prod.fst))) true, ∀ q s, Q p q → statOf x ts pos backend.toLower p = .ok s →
      ∃ s', statOf x' ts' pos' backend.toLower q = .ok s' ∧ R s s')
    (hxg : method.toLower = "gagne" → ExactLsq x'.leastsq) (hxj : method.toLower = "jamaly" → LocalMinimizer x'.minimizeScalar)
    (hdet : 2 ≤ (goodMoves out.rows).length → Determined x method.toLower (goodMoves out.rows)) :
    ∃ out', (computeCmv x' ts' pos' ref' method backend options').1 = .ok out' ∧ out'.flag = out.flag ∧
      TurnedMotion (k / c) α (out.speed, out.angle) (out'.speed, out'.angle) ∧
      ∃ midr, List.Forall₂ (RowRel R) out.rows midr ∧ midr.Perm out'.rows := by
  obtain ⟨stats, o, h1, h2, rfl, hm⟩ := computeCmv_ok hout
  obtain ⟨mids, stats', e1, e2, e3⟩ := prepare_related x x' ts ts' pos pos' ref ref' method backend stats h1 Q R hp hs
  obtain ⟨o', ho', -⟩ := (C28_validation method.toLower hm options').1 hopt.1
  have hkeys : ∀ kv ∈ options.getD [], kv.1 ∈ (documented method.toLower).map Prod.fst := by
    by_contra hn
    push Not at hn
    have := (C28_validation method.toLower hm options).2 hn
    unfold Raises at this
    rw [h2] at this
    cases this
  have hdoc : ∀ {k' : String} {v : ℝ}, (k', v) ∈ documented method.toLower → opt o k' = optionOf options k' v ∧ opt o' k' = optionOf options' k' v :=
    fun hkv => ⟨opt_of_valid hm hkeys h2 hkv, opt_of_valid hm hopt.1 ho' hkv⟩
  have hkt : opt o' "ktlim" = opt o "ktlim" := by
    have : ("ktlim", (0.4 : ℝ)) ∈ documented method.toLower := by rcases hm with h | h <;> rw [h] <;> simp [documented]
    rw [(hdoc this).1, (hdoc this).2, hopt.2.1]
  have hj : method.toLower = "jamaly" → OptsRel (k / c) o o' := by
    intro hjm
    obtain ⟨a1, a2, a3, a4⟩ := hopt.2.2 hjm
    have d2 : ("var_s_lim", (0.05 : ℝ)) ∈ documented method.toLower := by rw [hjm]; simp [documented]
    have d3 : ("mincorr", (0.8 : ℝ)) ∈ documented method.toLower := by rw [hjm]; simp [documented]
    have d4 : ("minvelocity", (0 : ℝ)) ∈ documented method.toLower := by rw [hjm]; simp [documented]
    have d5 : ("maxvelocity", (70 : ℝ)) ∈ documented method.toLower := by rw [hjm]; simp [documented]
    refine ⟨hkt, ?_, ?_, ?_, ?_⟩
    · rw [(hdoc d2).1, (hdoc d2).2, a1]
    · rw [(hdoc d3).1, (hdoc d3).2, a2]
    · rw [(hdoc d4).1, (hdoc d4).2, a3]
    · rw [(hdoc d5).1, (hdoc d5).2, a4]
  have hfin' : ∀ p ∈ stats, p.peak ≠ none → p.delay ≠ none := by
    intro p hp'
    unfold prepare at h1
    simp only at h1
    split_ifs at h1
    obtain ⟨q, -, hq⟩ := mapM_mem h1 p hp'
    unfold statOf at hq
    split at hq
    · cases hq
      exact hfin _ _
    · cases hq
  obtain ⟨f1, f2, f3⟩ := finish_turned x x' hR hc hk hm hkt hj stats mids stats' e2 e3 hfin' hxg hxj hdet
  refine ⟨finish x' method.toLower o' stats', ?_, f1, f2, f3⟩
  unfold computeCmv
  rw [e1]
  simp only [ho', Except.map]

/-! ## C154 -/

theorem dictGet?_map_val {ν ν' : Type} (d : List (ι × ν)) (g : ν → ν') (k : ι) : dictGet? (d.map fun r => (r.1, g r.2)) k = (dictGet? d k).map g := by
  unfold dictGet?
  induction d with
  | nil => rfl
  | cons r d ih =>
    by_cases h : r.1 = k
    · simp [h]
    · simp [List.find?_cons, h] at ih ⊢
      exact ih

/-- C154: moving all sites by the same vector changes nothing in the result. -/
theorem C154_translation (x : Ext) (ts : List (ι × List (Option ℝ))) (pos : List (ι × Vec)) (ref : RefArg ι) (method backend : String)
    (options : Option Dict) (w : Vec) :
    computeCmv x ts (pos.map fun r => (r.1, (r.2.1 + w.1, r.2.2 + w.2))) ref method backend options = computeCmv x ts pos ref method backend options := by
  have hids : (pos.map fun r => (r.1, (r.2.1 + w.1, r.2.2 + w.2))).map Prod.fst = pos.map Prod.fst := by
    rw [List.map_map]; rfl
  have hstat : ∀ b, statOf x ts (pos.map fun r => (r.1, (r.2.1 + w.1, r.2.2 + w.2))) b = statOf x ts pos b := by
    intro b
    funext p
    unfold statOf
    rw [dictGet?_map_val pos (fun v : Vec => (v.1 + w.1, v.2 + w.2)), dictGet?_map_val pos (fun v : Vec => (v.1 + w.1, v.2 + w.2))]
    cases dictGet? ts p.1 <;> cases dictGet? ts p.2 <;> cases dictGet? pos p.1 <;> cases dictGet? pos p.2 <;> simp
  have hprep : prepare x ts (pos.map fun r => (r.1, (r.2.1 + w.1, r.2.2 + w.2))) ref method backend = prepare x ts pos ref method backend := by
    unfold prepare
    simp only [hids, hstat]
  unfold computeCmv
  rw [hprep]

/-! ## C155 -/

/-- The same pair of sites. -/
def SamePair (p p' : PairStat ι) : Prop := p'.a = p.a ∧ p'.b = p.b

theorem flagged_same {R : PairStat ι → PairStat ι → Prop} (hR : ∀ p p', R p p' → SamePair p p') {rows mid rows' : List (PairStat ι × Flag)}
    (h : List.Forall₂ (RowRel R) rows mid) (hp : mid.Perm rows') (a b : ι) (f : Flag) : Flagged rows' a b f ↔ Flagged rows a b f := by
  have e : Flagged rows' a b f ↔ Flagged mid a b f := by
    unfold Flagged
    simp only [hp.mem_iff]
  rw [e]
  clear e hp
  unfold Flagged
  induction h with
  | nil => simp
  | cons hab _ ih =>
    obtain ⟨h1, h2⟩ := hab
    obtain ⟨s1, s2⟩ := hR _ _ h1
    simp only [List.mem_cons, exists_eq_or_imp, ih, s1, s2, h2]

/-- C155: turning the positions by `α` and stretching them by `k ≠ 0` turns and stretches the motion in the same way (for jamaly with the
velocity limits stretched along) and keeps all flags, if the GOOD pairs determine the motion. -/
theorem C155_turned (x : Ext) (ts : List (ι × List (Option ℝ))) (pos : List (ι × Vec)) (ref : RefArg ι) (method backend : String)
    (options options' : Option Dict) (k α : ℝ) (hk : k ≠ 0) (out : Out ι)
    (hout : (computeCmv x ts pos ref method backend options).1 = .ok out) (hopt : LimitsScaled k method.toLower options options')
    (hfin : ∀ a b, (x.delays backend.toLower a b).2.1 ≠ none → (x.delays backend.toLower a b).1 ≠ none)
    (hdet : Determined x method.toLower (goodMoves out.rows)) :
    ∃ out', (computeCmv x ts (pos.map fun r => (r.1, turnVec k α r.2)) ref method backend options').1 = .ok out' ∧ out'.flag = out.flag ∧
      TurnedMotion k α (out.speed, out.angle) (out'.speed, out'.angle) ∧ ∀ a b f, Flagged out'.rows a b f ↔ Flagged out.rows a b f := by
  have hids : (pos.map fun r => (r.1, turnVec k α r.2)).map Prod.fst = pos.map Prod.fst := by rw [List.map_map]; rfl
  obtain ⟨out', h1, h2, h3, midr, h4, h5⟩ := cmv_turned x x (c := 1) (k := k) (α := α) one_ne_zero hk ts ts pos (pos.map fun r => (r.1, turnVec k α r.2)) ref ref
    method backend options options' out hout (by rw [div_one]; exact hopt) hfin (fun p q => q = p) (fun p p' => StatRel 1 k α p p' ∧ SamePair p p')
    (fun p p' h => h.1) ⟨_, List.forall₂_same.2 fun _ _ => rfl, by rw [hids]⟩
    (by
      rintro p - q s rfl hs
      unfold statOf at hs ⊢
      rw [dictGet?_map_val pos (turnVec k α), dictGet?_map_val pos (turnVec k α)]
      cases hq1 : dictGet? ts q.1 <;> cases hq2 : dictGet? ts q.2 <;> cases hq3 : dictGet? pos q.1 <;> cases hq4 : dictGet? pos q.2 <;>
        simp only [hq1, hq2, hq3, hq4] at hs <;> cases hs
      rename_i sa sb pa pb
      simp only [Option.map_some]
      have hv : (((turnVec k α pb).1 - (turnVec k α pa).1, (turnVec k α pb).2 - (turnVec k α pa).2) : Vec) = turnVec k α (pb.1 - pa.1, pb.2 - pa.2) := by
        simp only [turnVec]
        exact Prod.ext_iff.2 ⟨by simp only; ring, by simp only; ring⟩
      refine ⟨_, rfl, ⟨Iff.rfl, fun _ => Iff.rfl, fun _ => Iff.rfl, fun _ => Iff.rfl, rfl, rfl, ?_, ?_, fun _ => ⟨1, .inl rfl, ?_, ?_⟩⟩, rfl, rfl⟩
      · simp
      · simp only [hv, magnitude_turn]
      · simp
      · simp only [hv, mul_one])
    (fun hg => (hdet.1 hg).1) (fun hj => (hdet.2 hj).1) (fun _ => hdet)
  rw [div_one] at h3
  exact ⟨out', h1, h2, h3, fun a b f => flagged_same (fun p p' h => h.2) h4 h5 a b f⟩

/-! ## C156 -/

/-- Two records of the same sites with the delays of the second `c` times those of the first. -/
theorem cmv_slowed (x x' : Ext) (hls : x'.leastsq = x.leastsq) (hms : x'.minimizeScalar = x.minimizeScalar) (ts : List (ι × List (Option ℝ))) (pos : List (ι × Vec))
    (ref : RefArg ι) (method backend : String) (options options' : Option Dict) (c : ℝ) (hc : c ≠ 0) (out : Out ι)
    (hslow : ∀ a b, x'.delays backend.toLower a b = ((x.delays backend.toLower a b).1.map (fun t => c * t), (x.delays backend.toLower a b).2))
    (hout : (computeCmv x ts pos ref method backend options).1 = .ok out) (hopt : LimitsScaled (1 / c) method.toLower options options')
    (hfin : ∀ a b, (x.delays backend.toLower a b).2.1 ≠ none → (x.delays backend.toLower a b).1 ≠ none)
    (hdet : Determined x method.toLower (goodMoves out.rows)) :
    ∃ out', (computeCmv x' ts pos ref method backend options').1 = .ok out' ∧ out'.flag = out.flag ∧
      TurnedMotion (1 / c) 0 (out.speed, out.angle) (out'.speed, out'.angle) ∧ ∀ a b f, Flagged out'.rows a b f ↔ Flagged out.rows a b f := by
  obtain ⟨out', h1, h2, h3, midr, h4, h5⟩ := cmv_turned x x' (c := c) (k := 1) (α := 0) hc one_ne_zero ts ts pos pos ref ref
    method backend options options' out hout hopt hfin (fun p q => q = p) (fun p p' => StatRel c 1 0 p p' ∧ SamePair p p')
    (fun p p' h => h.1) ⟨_, List.forall₂_same.2 fun _ _ => rfl, List.Perm.refl _⟩
    (by
      rintro p - q s rfl hs
      unfold statOf at hs ⊢
      cases hq1 : dictGet? ts q.1 <;> cases hq2 : dictGet? ts q.2 <;> cases hq3 : dictGet? pos q.1 <;> cases hq4 : dictGet? pos q.2 <;>
        simp only [hq1, hq2, hq3, hq4] at hs <;> cases hs
      rename_i sa sb pa pb
      simp only [hslow]
      refine ⟨_, rfl, ⟨Iff.rfl, fun _ => Iff.rfl, fun _ => Iff.rfl, fun _ => Iff.rfl, rfl, rfl, ?_, ?_, fun _ => ⟨1, .inl rfl, ?_, ?_⟩⟩, rfl, rfl⟩
      · cases (x.delays backend.toLower sa sb).1 <;> simp [abs_mul]
      · simp
      · simp
      · simp [turnVec])
    (fun hg => by rw [hls]; exact (hdet.1 hg).1) (fun hj => by rw [hms]; exact (hdet.2 hj).1) (fun _ => hdet)
  exact ⟨out', h1, h2, h3, fun a b f => flagged_same (fun p p' h => h.2) h4 h5 a b f⟩

/-- An `Ext` whose delays of the backend xcorr are those of `compute_delays` at the sampling interval `dt`. -/
noncomputable def sampledAt (x : Ext) (nanD : List (Option ℝ) → List (Option ℝ) → Option ℝ) (dt : ℝ) : Ext :=
  { x with delays := fun b => if b = "xcorr" then xcorrDelays nanD dt else x.delays b }

theorem sampledAt_fin (x : Ext) (nanD : List (Option ℝ) → List (Option ℝ) → Option ℝ) (dt : ℝ) (a b : List (Option ℝ)) :
    ((sampledAt x nanD dt).delays "xcorr" a b).2.1 ≠ none → ((sampledAt x nanD dt).delays "xcorr" a b).1 ≠ none := by
  simp only [sampledAt, if_true]
  unfold xcorrDelays
  split_ifs
  · intro h; exact absurd rfl h
  · split
    · intro _; simp
    · intro h; exact absurd rfl h

/-- C156: the same samples taken `c > 0` times as far apart in time mean a motion `c` times as slow: the speed is divided by `c`, the direction
is kept, and so are all flags (for jamaly with the velocity limits divided by `c`). -/
theorem C156_slow_motion (x : Ext) (nanD : List (Option ℝ) → List (Option ℝ) → Option ℝ) (dt c : ℝ) (hc : 0 < c) (ts : List (ι × List (Option ℝ)))
    (pos : List (ι × Vec)) (ref : RefArg ι) (method backend : String) (hb : backend.toLower = "xcorr") (options options' : Option Dict) (out : Out ι)
    (hout : (computeCmv (sampledAt x nanD dt) ts pos ref method backend options).1 = .ok out) (hopt : LimitsScaled (1 / c) method.toLower options options')
    (hdet : Determined x method.toLower (goodMoves out.rows)) :
    ∃ out', (computeCmv (sampledAt x (fun a b => (nanD a b).map fun t => c * t) (c * dt)) ts pos ref method backend options').1 = .ok out' ∧
      out'.flag = out.flag ∧ (∀ a b f, Flagged out'.rows a b f ↔ Flagged out.rows a b f) ∧
      TurnedMotion (1 / c) 0 (out.speed, out.angle) (out'.speed, out'.angle) := by
  obtain ⟨out', h1, h2, h3, h4⟩ := cmv_slowed (sampledAt x nanD dt) (sampledAt x (fun a b => (nanD a b).map fun t => c * t) (c * dt)) rfl rfl ts pos ref method backend
    options options' c hc.ne' out
    (by
      intro a b
      rw [hb]
      simp only [sampledAt, if_true]
      exact delays_unit nanD dt c a b)
    hout hopt (by rw [hb]; exact sampledAt_fin x nanD dt) hdet
  exact ⟨out', h1, h2, h4, h3⟩

/-! ## C157 -/

theorem avgOf_reverse (s : List (Option ℝ)) : avgOf s.reverse = avgOf s := by
  unfold avgOf
  rw [List.filterMap_reverse, List.sum_reverse, List.length_reverse]

theorem isMax_reverse (s : List (Option ℝ)) (m : ℝ) : IsMaxOf m s.reverse ↔ IsMaxOf m s := by
  unfold IsMaxOf
  simp

theorem std_below_reverse (s : List (Option ℝ)) (t : ℝ) : StdBelow s.reverse t ↔ StdBelow s t := by
  unfold StdBelow
  rw [avgOf_reverse, List.filterMap_reverse, List.map_reverse, List.sum_reverse, List.length_reverse]
  simp

/-- C157: reading the record backwards reverses the motion: same speed, opposite direction, same flags; if all series are complete and of the same
length and the correlation of any two of them that vary has a single largest value. -/
theorem C157_backwards (x : Ext) (nanD : List (Option ℝ) → List (Option ℝ) → Option ℝ) (dt : ℝ) (ts : List (ι × List (Option ℝ)))
    (pos : List (ι × Vec)) (ref : RefArg ι) (method backend : String) (hb : backend.toLower = "xcorr") (options : Option Dict) (out : Out ι)
    (n : ℕ) (hlen : ∀ r ∈ ts, r.2.length = n) (hnan : ∀ r ∈ ts, none ∉ r.2)
    (hpeak : ∀ r ∈ ts, ∀ r' ∈ ts, ClearPeak (r.2.filterMap id) (r'.2.filterMap id))
    (hout : (computeCmv (sampledAt x nanD dt) ts pos ref method backend options).1 = .ok out)
    (hdet : Determined x method.toLower (goodMoves out.rows)) :
    ∃ out', (computeCmv (sampledAt x nanD dt) (ts.map fun r => (r.1, r.2.reverse)) pos ref method backend options).1 = .ok out' ∧
      out'.flag = out.flag ∧ (∀ a b f, Flagged out'.rows a b f ↔ Flagged out.rows a b f) ∧
      TurnedMotion (-1) 0 (out.speed, out.angle) (out'.speed, out'.angle) := by
  have hopt : LimitsScaled (1 / (-1)) method.toLower options options := by
    obtain ⟨stats, o, h1, h2, rfl, hm⟩ := computeCmv_ok hout
    refine ⟨?_, rfl, fun _ => ⟨rfl, rfl, by simp, by simp⟩⟩
    by_contra hn
    push Not at hn
    have := (C28_validation method.toLower hm options).2 hn
    unfold Raises at this
    rw [h2] at this
    cases this
  obtain ⟨out', h1, h2, h3, midr, h4, h5⟩ := cmv_turned (sampledAt x nanD dt) (sampledAt x nanD dt) (c := -1) (k := 1) (α := 0) (by norm_num) one_ne_zero
    ts (ts.map fun r => (r.1, r.2.reverse)) pos pos ref ref
    method backend options options out hout hopt (by rw [hb]; exact sampledAt_fin x nanD dt) (fun p q => q = p) (fun p p' => StatRel (-1) 1 0 p p' ∧ SamePair p p')
    (fun p p' h => h.1) ⟨_, List.forall₂_same.2 fun _ _ => rfl, List.Perm.refl _⟩
    (by
      rintro p - q s rfl hs
      unfold statOf at hs ⊢
      rw [dictGet?_map_val ts List.reverse, dictGet?_map_val ts List.reverse]
      cases hq1 : dictGet? ts q.1 <;> cases hq2 : dictGet? ts q.2 <;> cases hq3 : dictGet? pos q.1 <;> cases hq4 : dictGet? pos q.2 <;>
        simp only [hq1, hq2, hq3, hq4] at hs <;> cases hs
      rename_i sa sb pa pb
      have m1 := dictGet?_mem hq1
      have m2 := dictGet?_mem hq2
      obtain ⟨d1, d2⟩ := delays_reverse nanD dt (hnan _ m1) (hnan _ m2) ((hlen _ m1).trans (hlen _ m2).symm) (hpeak _ m1 _ m2)
      have hb' : (sampledAt x nanD dt).delays backend.toLower = xcorrDelays nanD dt := by rw [hb]; simp [sampledAt]
      simp only [Option.map_some, hb']
      have hor : xcorrDelays nanD dt sa.reverse sb.reverse = xcorrDelays nanD dt sa sb ∨
          xcorrDelays nanD dt sa.reverse sb.reverse = negDelay (xcorrDelays nanD dt sa sb) := by
        by_cases hp : (xcorrDelays nanD dt sa sb).2.1 = none
        · exact d2 hp
        · exact .inr (d1 hp)
      refine ⟨_, rfl, ⟨Iff.rfl, ?_, ?_, ?_, ?_, ?_, ?_, ?_, fun hp => ⟨1, .inl rfl, ?_, ?_⟩⟩, rfl, rfl⟩
      · intro t; simp only [std_below_reverse]
      · intro t; simp only [MaxBelow, isMax_reverse]
      · intro t; simp only [LowVariation, isMax_reverse, avgOf_reverse]
      · rcases hor with h | h <;> rw [h] <;> rfl
      · rcases hor with h | h <;> rw [h] <;> rfl
      · rcases hor with h | h <;> rw [h] <;> cases h' : (xcorrDelays nanD dt sa sb).1 <;> simp [negDelay, h']
      · simp
      · simp only at hp ⊢
        rw [d1 hp]
        simp [negDelay]
      · simp [turnVec])
    (fun hg => (hdet.1 hg).1) (fun hj => (hdet.2 hj).1) (fun _ => hdet)
  have e : (1 : ℝ) / (-1) = -1 := by norm_num
  rw [e] at h3
  exact ⟨out', h1, h2, fun a b f => flagged_same (fun p p' h => h.2) h4 h5 a b f, h3⟩

/-! ## C158 -/

/-- Same pair, perhaps in the opposite order. -/
def SameOrSwapped (p q : ι × ι) : Prop := q = p ∨ q = (p.2, p.1)

theorem combosRepl_perm {l l' : List ι} (h : l.Perm l') : ∃ mid, List.Forall₂ SameOrSwapped (combosRepl l) mid ∧ mid.Perm (combosRepl l') := by
  have hrefl : ∀ m : List (ι × ι), List.Forall₂ SameOrSwapped m m := fun m => List.forall₂_same.2 fun _ _ => .inl rfl
  induction h with
  | nil => exact ⟨[], .nil, .refl _⟩
  | @cons a l l' hl ih =>
    obtain ⟨mid, h1, h2⟩ := ih
    refine ⟨(a :: l).map (fun y => (a, y)) ++ mid, List.rel_append (hrefl _) h1, ?_⟩
    exact List.Perm.append ((hl.cons a).map _) h2
  | swap a b l =>
    refine ⟨(b, b) :: (a, b) :: (l.map (fun y => (b, y)) ++ combosRepl (a :: l)), ?_, ?_⟩
    · simp only [combosRepl, List.map_cons, List.cons_append]
      exact .cons (.inl rfl) (.cons (.inr rfl) (hrefl _))
    · simp only [combosRepl, List.map_cons, List.cons_append]
      rw [← Multiset.coe_eq_coe]
      simp only [← Multiset.cons_coe, ← Multiset.coe_add, ← Multiset.singleton_add]
      abel
  | @trans l1 l2 l3 _ _ ih1 ih2 =>
    obtain ⟨m1, a1, a2⟩ := ih1
    obtain ⟨m2, b1, b2⟩ := ih2
    obtain ⟨m3, c1, c2⟩ := List.perm_comp_forall₂ a2 b1
    refine ⟨m3, ?_, c2.trans b2⟩
    have : List.Forall₂ (fun p q => ∃ r, SameOrSwapped p r ∧ SameOrSwapped r q) (combosRepl l1) m3 := by
      clear a2 b1 b2 c2
      generalize combosRepl l1 = L at *
      induction a1 generalizing m3 with
      | nil => cases c1; exact .nil
      | cons hab _ ih =>
        cases c1 with
        | cons h1 h2 => exact .cons ⟨_, hab, h1⟩ (ih _ h2)
    refine this.imp ?_
    rintro p q ⟨r, h1, h2⟩
    rcases h1 with rfl | rfl <;> rcases h2 with rfl | rfl
    · exact .inl rfl
    · exact .inr rfl
    · exact .inr rfl
    · exact .inl rfl

theorem pairs_perm {l l' m m' : List ι} (h : l.Perm l') (hm : ∀ i ∈ l', i ∈ m' ↔ i ∈ m) :
    ∃ mid, List.Forall₂ SameOrSwapped (getPairs l (some m) true) mid ∧ mid.Perm (getPairs l' (some m') true) := by
  obtain ⟨mid, h1, h2⟩ := combosRepl_perm h
  refine ⟨mid.filter fun p => decide (p.1 ∈ m ∨ p.2 ∈ m), ?_, ?_⟩
  · simp only [getPairs, if_true]
    clear h2
    generalize combosRepl l = L at *
    induction h1 with
    | nil => exact .nil
    | @cons p q _ _ hab _ ih =>
      have e : decide (q.1 ∈ m ∨ q.2 ∈ m) = decide (p.1 ∈ m ∨ p.2 ∈ m) := by
        rcases hab with rfl | rfl
        · rfl
        · simp only [or_comm]
      rw [List.filter_cons, List.filter_cons, e]
      by_cases hd : decide (p.1 ∈ m ∨ p.2 ∈ m) = true
      · rw [if_pos hd, if_pos hd]; exact .cons hab ih
      · rw [if_neg hd, if_neg hd]; exact ih
  · simp only [getPairs, if_true]
    refine (h2.filter _).trans (List.Perm.of_eq ?_)
    refine List.filter_congr fun p hp => ?_
    obtain ⟨m1, m2⟩ := mem_combosRepl_mem hp
    simp only [hm _ m1, hm _ m2]

theorem dictGet?_perm {ν : Type} {d d' : List (ι × ν)} (h : d.Perm d') (hn : (d.map Prod.fst).Nodup) (k : ι) : dictGet? d' k = dictGet? d k := by
  cases hd : dictGet? d k with
  | none =>
    rw [dictGet?_none] at hd ⊢
    rwa [← (h.map Prod.fst).mem_iff]
  | some v =>
    exact dictGet?_of_mem ((h.map Prod.fst).nodup_iff.1 hn) (h.mem_iff.1 (dictGet?_mem hd))

theorem flagged_either {R : PairStat ι → PairStat ι → Prop} (hR : ∀ p p', R p p' → SameOrSwapped (p.a, p.b) (p'.a, p'.b))
    {rows mid rows' : List (PairStat ι × Flag)} (h4 : List.Forall₂ (RowRel R) rows mid) (h5 : mid.Perm rows') (a b : ι) (f : Flag) :
    (Flagged rows' a b f ∨ Flagged rows' b a f) ↔ (Flagged rows a b f ∨ Flagged rows b a f) := by
  have e : ∀ a b, Flagged rows' a b f ↔ Flagged mid a b f := by
    intro a b
    unfold Flagged
    simp only [h5.mem_iff]
  rw [e, e]
  clear e h5
  unfold Flagged
  induction h4 with
  | nil => simp
  | @cons r r' _ _ hab _ ih =>
    obtain ⟨hr, h2⟩ := hab
    have hsw := hR _ _ hr
    simp only [List.mem_cons, exists_eq_or_imp, h2]
    have key : (r'.1.a = a ∧ r'.1.b = b ∧ r.2 = f) ∨ (r'.1.a = b ∧ r'.1.b = a ∧ r.2 = f) ↔
        (r.1.a = a ∧ r.1.b = b ∧ r.2 = f) ∨ (r.1.a = b ∧ r.1.b = a ∧ r.2 = f) := by
      rcases hsw with h | h
      · rw [(Prod.mk.inj h).1, (Prod.mk.inj h).2]
      · rw [(Prod.mk.inj h).1, (Prod.mk.inj h).2]
        tauto
    exact or_or_or_comm.trans ((or_congr key ih).trans or_or_or_comm)

/-- C158: the order of the rows of the position table (and of the columns of the time series and of the references) does not matter: speed,
direction, overall flag and the flags of the pairs are the same, if the sites are distinct, all series are complete and of the same length, the
correlation of any two series that vary has a single largest value and the GOOD pairs determine the motion. -/
theorem C158_row_order (x : Ext) (nanD : List (Option ℝ) → List (Option ℝ) → Option ℝ) (dt : ℝ) (ts ts' : List (ι × List (Option ℝ)))
    (pos pos' : List (ι × Vec)) (ref ref' : RefArg ι) (method backend : String) (hb : backend.toLower = "xcorr") (options : Option Dict) (out : Out ι)
    (hpos : pos.Perm pos') (hts : ts.Perm ts') (href : ∀ i ∈ pos.map Prod.fst, IsRef ref' i ↔ IsRef ref i)
    (hnp : (pos.map Prod.fst).Nodup) (hnt : (ts.map Prod.fst).Nodup)
    (n : ℕ) (hlen : ∀ r ∈ ts, r.2.length = n) (hnan : ∀ r ∈ ts, none ∉ r.2)
    (hpeak : ∀ r ∈ ts, ∀ r' ∈ ts, ClearPeak (r.2.filterMap id) (r'.2.filterMap id))
    (hout : (computeCmv (sampledAt x nanD dt) ts pos ref method backend options).1 = .ok out)
    (hdet : Determined x method.toLower (goodMoves out.rows)) :
    ∃ out', (computeCmv (sampledAt x nanD dt) ts' pos' ref' method backend options).1 = .ok out' ∧
      out'.flag = out.flag ∧ (∀ a b f, (Flagged out'.rows a b f ∨ Flagged out'.rows b a f) ↔ (Flagged out.rows a b f ∨ Flagged out.rows b a f)) ∧
      TurnedMotion 1 0 (out.speed, out.angle) (out'.speed, out'.angle) := by
  have hopt : LimitsScaled (1 / 1) method.toLower options options := by
    obtain ⟨stats, o, h1, h2, rfl, hm⟩ := computeCmv_ok hout
    refine ⟨?_, rfl, fun _ => ⟨rfl, rfl, by simp, by simp⟩⟩
    by_contra hn
    push Not at hn
    have := (C28_validation method.toLower hm options).2 hn
    unfold Raises at this
    rw [h2] at this
    cases this
  obtain ⟨out', h1, h2, h3, midr, h4, h5⟩ := cmv_turned (sampledAt x nanD dt) (sampledAt x nanD dt) (c := 1) (k := 1) (α := 0) one_ne_zero one_ne_zero
    ts ts' pos pos' ref ref'
    method backend options options out hout hopt (by rw [hb]; exact sampledAt_fin x nanD dt) SameOrSwapped
    (fun p p' => StatRel 1 1 0 p p' ∧ SameOrSwapped (p.a, p.b) (p'.a, p'.b))
    (fun p p' h => h.1) (pairs_perm (hpos.map _) fun i hi =>
      have hi' : i ∈ pos.map Prod.fst := (hpos.map Prod.fst).mem_iff.2 hi
      (isRef_iff hi).symm.trans ((href i hi').trans (isRef_iff hi')))
    (by
      rintro p - q s hpq hs
      unfold statOf at hs ⊢
      rw [dictGet?_perm hts hnt, dictGet?_perm hts hnt, dictGet?_perm hpos hnp, dictGet?_perm hpos hnp]
      cases hq1 : dictGet? ts p.1 <;> cases hq2 : dictGet? ts p.2 <;> cases hq3 : dictGet? pos p.1 <;> cases hq4 : dictGet? pos p.2 <;>
        simp only [hq1, hq2, hq3, hq4] at hs <;> cases hs
      rename_i sa sb pa pb
      have m1 := dictGet?_mem hq1
      have m2 := dictGet?_mem hq2
      obtain ⟨d1, d2⟩ := delays_swap nanD dt (hnan _ m1) (hnan _ m2) ((hlen _ m1).trans (hlen _ m2).symm) (hpeak _ m1 _ m2)
      have hb' : (sampledAt x nanD dt).delays backend.toLower = xcorrDelays nanD dt := by rw [hb]; simp [sampledAt]
      rcases hpq with rfl | rfl
      · rw [hq1, hq2, hq3, hq4]
        exact ⟨_, rfl, ⟨Iff.rfl, fun _ => Iff.rfl, fun _ => Iff.rfl, fun _ => Iff.rfl, rfl, rfl, by simp, by simp, fun _ => ⟨1, .inl rfl, by simp, by simp [turnVec]⟩⟩,
          .inl rfl⟩
      · simp only [hq1, hq2, hq3, hq4, hb']
        have hor : xcorrDelays nanD dt sb sa = xcorrDelays nanD dt sa sb ∨
            xcorrDelays nanD dt sb sa = negDelay (xcorrDelays nanD dt sa sb) := by
          by_cases hp : (xcorrDelays nanD dt sa sb).2.1 = none
          · exact d2 hp
          · exact .inr (d1 hp)
        refine ⟨_, rfl, ⟨eq_comm, fun _ => or_comm, fun _ => or_comm, fun _ => or_comm, ?_, ?_, ?_, ?_, fun hp => ⟨-1, .inr rfl, ?_, ?_⟩⟩, .inr rfl⟩
        · rcases hor with h | h <;> rw [h] <;> rfl
        · rcases hor with h | h <;> rw [h] <;> rfl
        · rcases hor with h | h <;> rw [h] <;> cases h' : (xcorrDelays nanD dt sa sb).1 <;> simp [negDelay, h']
        · simp only [magnitude, abs_one, one_mul]
          congr 1
          ring
        · simp only at hp ⊢
          rw [d1 hp]
          simp [negDelay]
        · simp [turnVec])
    (fun hg => (hdet.1 hg).1) (fun hj => (hdet.2 hj).1) (fun _ => hdet)
  rw [div_one] at h3
  exact ⟨out', h1, h2, fun a b f => flagged_either (fun p p' h => h.2) h4 h5 a b f, h3⟩

/-! ## C159 -/

theorem combosRepl_map {κ : Type} (f : ι → κ) (l : List ι) : combosRepl (l.map f) = (combosRepl l).map (Prod.map f f) := by
  induction l with
  | nil => rfl
  | cons a l ih => simp [combosRepl, ih, Function.comp_def]

theorem dictGet?_rename {κ ν : Type} [DecidableEq κ] (f : ι → κ) (hf : Function.Injective f) (d : List (ι × ν)) (k : ι) :
    dictGet? (d.map fun r => (f r.1, r.2)) (f k) = dictGet? d k := by
  induction d with
  | nil => rfl
  | cons r d ih =>
    simp only [dictGet?, List.map_cons, List.find?_cons] at ih ⊢
    by_cases h : r.1 = k
    · simp [h]
    · have : f r.1 ≠ f k := fun e => h (hf e)
      simp only [h, this, decide_false]
      exact ih

theorem mapM_rename {α β γ δ : Type} (u : α → Except PyErr β) (v : γ → Except PyErr δ) (g : α → γ) (h : β → δ) (l : List α)
    (hl : ∀ a ∈ l, v (g a) = (u a).map h) : (l.map g).mapM v = (l.mapM u).map (List.map h) := by
  induction l with
  | nil => rfl
  | cons a l ih =>
    rw [List.map_cons, List.mapM_cons, List.mapM_cons, hl a (by simp), ih fun b hb => hl b (by simp [hb])]
    cases u a with
    | error e => rfl
    | ok b =>
      cases l.mapM u <;> rfl

theorem prepare_rename {κ : Type} [DecidableEq κ] (f : ι → κ) (hf : Function.Injective f) (x : Ext) (ts : List (ι × List (Option ℝ)))
    (pos : List (ι × Vec)) (ref : RefArg ι) (method backend : String) :
    prepare x (ts.map fun r => (f r.1, r.2)) (pos.map fun r => (f r.1, r.2)) (renameRef f ref) method backend =
      (prepare x ts pos ref method backend).map (List.map (renamePair f)) := by
  have hids : (renameRef f ref).ids ((pos.map fun r => (f r.1, r.2)).map Prod.fst) = (ref.ids (pos.map Prod.fst)).map f := by
    cases ref <;> simp [renameRef, RefArg.ids]
  have hp : getPairs ((pos.map fun r => (f r.1, r.2)).map Prod.fst) (some ((ref.ids (pos.map Prod.fst)).map f)) true =
      (getPairs (pos.map Prod.fst) (some (ref.ids (pos.map Prod.fst))) true).map (Prod.map f f) := by
    have e : (pos.map fun r => (f r.1, r.2)).map Prod.fst = (pos.map Prod.fst).map f := by simp
    rw [e]
    generalize pos.map Prod.fst = l
    simp only [getPairs, if_true, combosRepl_map, List.filter_map]
    congr 1
    apply List.filter_congr
    intro p _
    simp [Function.comp_def, hf.eq_iff]
  unfold prepare
  simp only [hids, hp]
  by_cases h1 : method.toLower ∉ ["jamaly", "gagne"]
  · rw [if_pos h1, if_pos h1]; rfl
  rw [if_neg h1, if_neg h1]
  by_cases h2 : backend.toLower ∉ ["xcorr", "tf"]
  · rw [if_pos h2, if_pos h2]; rfl
  rw [if_neg h2, if_neg h2]
  by_cases h3 : getPairs (pos.map Prod.fst) (some (ref.ids (pos.map Prod.fst))) true = []
  · rw [if_pos h3, if_pos (by rw [h3]; rfl)]; rfl
  · rw [if_neg h3, if_neg (fun e => h3 (List.map_eq_nil_iff.1 e))]
    apply mapM_rename
    intro p _
    unfold statOf
    simp only [Prod.map, dictGet?_rename f hf]
    cases dictGet? ts p.1 <;> cases dictGet? ts p.2 <;> cases dictGet? pos p.1 <;> cases dictGet? pos p.2 <;> rfl

theorem flag_rename {κ : Type} [DecidableEq κ] (f : ι → κ) (hf : Function.Injective f) (method : String) (o : Dict) (p : PairStat ι) :
    pairFlag method o (renamePair f p) = pairFlag method o p := by
  unfold pairFlag
  simp only [renamePair, hf.eq_iff]
  congr!

/-- The row of a pair with its flag after the sites got the names `f`. -/
def renameRow {κ : Type} (f : ι → κ) (r : PairStat ι × Flag) : PairStat κ × Flag := (renamePair f r.1, r.2)

theorem reaches_rename {κ : Type} (f : ι → κ) (t : ℝ) (p : PairStat ι) : reaches t (renamePair f p) = reaches t p := rfl

theorem countGood_rename {κ : Type} (f : ι → κ) (t : ℝ) (rows : List (PairStat ι × Flag)) :
    countGood t (rows.map (renameRow f)) = countGood t rows := by
  unfold countGood
  rw [List.countP_map]
  rfl

theorem gagneSelect_rename {κ : Type} (f : ι → κ) (rows : List (PairStat ι × Flag)) :
    gagneSelect (rows.map (renameRow f)) = ((gagneSelect rows).1, (gagneSelect rows).2.map (renameRow f)) := by
  unfold gagneSelect
  simp only [countGood_rename, List.map_map]
  rfl

theorem goodPairs_rename {κ : Type} (f : ι → κ) (rows : List (PairStat ι × Flag)) : goodPairs (rows.map (renameRow f)) = goodPairs rows := by
  unfold goodPairs
  rw [List.filter_map, List.map_map]
  rfl

theorem finish_rename {κ : Type} [DecidableEq κ] (f : ι → κ) (hf : Function.Injective f) (x : Ext) (method : String) (o : Dict)
    (stats : List (PairStat ι)) : finish x method o (stats.map (renamePair f)) = renameOut f (finish x method o stats) := by
  have h0 : (stats.map (renamePair f)).map (fun p => (p, pairFlag method o p)) = (stats.map fun p => (p, pairFlag method o p)).map (renameRow f) := by
    simp only [List.map_map, Function.comp_def, renameRow, flag_rename f hf]
  have h1 : (if method = "gagne" then gagneSelect ((stats.map (renamePair f)).map fun p => (p, pairFlag method o p))
        else (Flag.good, (stats.map (renamePair f)).map fun p => (p, pairFlag method o p))) =
      ((if method = "gagne" then gagneSelect (stats.map fun p => (p, pairFlag method o p)) else (Flag.good, stats.map fun p => (p, pairFlag method o p))).1,
       (if method = "gagne" then gagneSelect (stats.map fun p => (p, pairFlag method o p)) else (Flag.good, stats.map fun p => (p, pairFlag method o p))).2.map
        (renameRow f)) := by
    rw [h0]
    split_ifs
    · exact gagneSelect_rename f _
    · rfl
  unfold finish
  simp only [h1, goodPairs_rename]
  generalize (if method = "gagne" then gagneSelect (stats.map fun p => (p, pairFlag method o p)) else (Flag.good, stats.map fun p => (p, pairFlag method o p))) = sel
  by_cases h : (goodPairs sel.2).length ≤ 1
  · rw [if_pos h, if_pos h]
    rfl
  · rw [if_neg h, if_neg h]
    simp only [renameOut, List.map_map, Function.comp_def]
    rfl

/-- C159: the names of the sites do not matter: with other names (different ones for different sites) the call fails in the same way or
returns the same speed, direction, flags and distances. -/
theorem C159_names {κ : Type} [DecidableEq κ] (f : ι → κ) (hf : Function.Injective f) (x : Ext) (ts : List (ι × List (Option ℝ)))
    (pos : List (ι × Vec)) (ref : RefArg ι) (method backend : String) (options : Option Dict) :
    computeCmv x (ts.map fun r => (f r.1, r.2)) (pos.map fun r => (f r.1, r.2)) (renameRef f ref) method backend options =
      ((computeCmv x ts pos ref method backend options).1.map (renameOut f), (computeCmv x ts pos ref method backend options).2) := by
  unfold computeCmv
  rw [prepare_rename f hf]
  cases prepare x ts pos ref method backend with
  | error e => rfl
  | ok stats =>
    simp only [Except.map]
    cases (validateOptions method.toLower options).1 with
    | error e => rfl
    | ok o =>
      simp only [Prod.mk.injEq, Except.ok.injEq, and_true]
      exact finish_rename f hf x method.toLower o stats

/-- C159: columns of the time series for sites without a position do not matter. -/
theorem C159_extra_columns (x : Ext) (ts ts' : List (ι × List (Option ℝ))) (pos : List (ι × Vec)) (ref : RefArg ι) (method backend : String)
    (options : Option Dict) (h : ∀ i ∈ pos.map Prod.fst, dictGet? ts' i = dictGet? ts i) :
    computeCmv x ts' pos ref method backend options = computeCmv x ts pos ref method backend options := by
  have this := mapM_rename (statOf x ts pos backend.toLower) (statOf x ts' pos backend.toLower) id id
    (getPairs (pos.map Prod.fst) (some (ref.ids (pos.map Prod.fst))) true) (by
      intro p hp
      obtain ⟨p1, p2, -⟩ := pairs_mem _ _ _ hp
      unfold statOf
      simp only [id, h _ p1, h _ p2]
      cases dictGet? ts p.1 <;> cases dictGet? ts p.2 <;> cases dictGet? pos p.1 <;> cases dictGet? pos p.2 <;> rfl)
  simp only [List.map_id] at this
  have this : prepare x ts' pos ref method backend = prepare x ts pos ref method backend := by
    unfold prepare
    simp only [this]
    cases (getPairs (pos.map Prod.fst) (some (ref.ids (pos.map Prod.fst))) true).mapM (statOf x ts pos backend.toLower) <;> simp [Except.map]
  unfold computeCmv
  rw [this]

/-! ## Concrete cases -/

/-- The hypotheses of C154 hold in a concrete case: one origin of coordinates or another. -/
example (x : Ext) : computeCmv x threeSeries (threeSites.map fun r => (r.1, (r.2.1 + 500000, r.2.2 + 4000000))) .none "gagne" "xcorr" none =
    computeCmv x threeSeries threeSites .none "gagne" "xcorr" none := C154_translation x _ _ _ _ _ _ (500000, 4000000)

theorem three_result (x : Ext) (nanD : List (Option ℝ) → List (Option ℝ) → Option ℝ) :
    ∃ out, (computeCmv (sampledAt x nanD 1) threeSeries threeSites .none "gagne" "xcorr" none).1 = .ok out ∧
      ∃ p ∈ goodMoves out.rows, ∃ q ∈ goodMoves out.rows, Independent p.2 q.2 := by
  obtain ⟨out, h1, h2, r, hr, s, hs, hr2, hs2, hi⟩ := frozen_gagne (sampledAt x nanD 1) nanD 1 one_pos (fun a b => by simp [sampledAt]) 3 (by norm_num) (5, 5) pulse arrives
    (fun _ => 0.6)
    threeSites (by simp [threeSites]) threeSeries three_frozen .none "gagne" "xcorr" (by decide +kernel) (by decide +kernel) none (by simp)
    (by
      intro r hr
      rcases threeSeries_mem hr with h | h | h <;> rw [h]
      · exact ⟨0, by norm_num, by norm_num [optionOf, dictGet?, pulse, arrives]⟩
      · exact ⟨1, by norm_num, by norm_num [optionOf, dictGet?, pulse, arrives]⟩
      · exact ⟨1, by norm_num, by norm_num [optionOf, dictGet?, pulse, arrives]⟩)
    0 1 0 2 (0, 0) (10, 0) (0, 0) (0, 10) (by simp [threeSites]) (by simp [threeSites]) (by simp [threeSites]) (by simp [threeSites])
    (Or.inl (by simp [RefArg.ids, threeSites])) (Or.inl (by simp [RefArg.ids, threeSites])) (by simp [arrives]) (by simp [arrives])
    (by simp [Independent])
  refine ⟨out, h1, ?_⟩
  have key : ∀ r ∈ out.rows, r.2 = .good → ∃ p ∈ goodMoves out.rows, p.2 = r.1.vec := by
    intro r hr hg
    have hw := h2 r hr
    unfold PlaneWave at hw
    obtain ⟨d, hd⟩ : ∃ d, r.1.delay = some d := ⟨_, hw⟩
    exact ⟨(d, r.1.vec), List.mem_filterMap.2 ⟨r, hr, by rw [if_pos hg, hd]; rfl⟩, rfl⟩
  obtain ⟨p, hp, ep⟩ := key r hr hr2
  obtain ⟨q, hq, eq⟩ := key s hs hs2
  exact ⟨p, hp, q, hq, by rw [ep, eq]; exact hi⟩

theorem three_determined (x : Ext) (hls : ExactLsq x.leastsq) (nanD : List (Option ℝ) → List (Option ℝ) → Option ℝ) :
    ∃ out, (computeCmv (sampledAt x nanD 1) threeSeries threeSites .none "gagne" "xcorr" none).1 = .ok out ∧
      Determined x "gagne".toLower (goodMoves out.rows) := by
  obtain ⟨out, h1, h2⟩ := three_result x nanD
  have e : "gagne".toLower = "gagne" := by decide +kernel
  refine ⟨out, h1, fun _ => ⟨hls, h2⟩, ?_⟩
  rw [e]
  intro h
  exact absurd h (by decide)

theorem limits_none (k : ℝ) : LimitsScaled k "gagne".toLower none none := by
  have e : "gagne".toLower = "gagne" := by decide +kernel
  rw [e]
  exact ⟨by simp, rfl, fun h => absurd h (by decide)⟩

theorem three_peaks : ∀ r ∈ threeSeries, ∀ r' ∈ threeSeries, ClearPeak (r.2.filterMap id) (r'.2.filterMap id) := by
  have key : ∀ m m' : ℤ, (m = 0 ∨ m = 1) → (m' = 0 ∨ m' = 1) → UniquePeak (wave 3 pulse 0.6 m) (wave 3 pulse 0.6 m') := by
    intro m m' hm hm'
    have w0 : demean (wave 3 pulse 0.6 0) = [1 / 2, -1 / 2, 0] := by
      simp [wave, demean, List.range_succ, pulse]; norm_num
    have w1 : demean (wave 3 pulse 0.6 1) = [0, 1 / 2, -1 / 2] := by
      simp [wave, demean, List.range_succ, pulse]; norm_num
    have hl : ∀ l : ℤ, IsLag 3 l → l = -2 ∨ l = -1 ∨ l = 0 ∨ l = 1 ∨ l = 2 := by
      unfold IsLag
      intro l h
      omega
    refine ⟨m - m', by rw [wave_length]; unfold IsLag; omega, ?_⟩
    rw [wave_length]
    intro l h hne
    rcases hm with rfl | rfl <;> rcases hm' with rfl | rfl <;> simp only [w0, w1] <;>
      rcases hl l h with rfl | rfl | rfl | rfl | rfl <;>
      first
      | exact absurd rfl hne
      | (simp [xcorrAt, Finset.sum_range_succ, ext]; try norm_num)
  intro r hr r' hr'
  refine .inr (.inr ?_)
  have e := three_frozen.recorded r hr
  have e' := three_frozen.recorded r' hr'
  rw [e, e', record_filterMap, record_filterMap]
  have ha : ∀ i, arrives i = 0 ∨ arrives i = 1 := by
    intro i; unfold arrives; split_ifs <;> simp
  exact key _ _ (ha _) (ha _)

theorem three_len : ∀ r ∈ threeSeries, r.2.length = 3 := by
  intro r hr
  rw [three_frozen.recorded r hr]
  simp [record]

theorem three_none : ∀ r ∈ threeSeries, none ∉ r.2 := by
  intro r hr
  rw [three_frozen.recorded r hr]
  exact record_none _ _ _ _

/-- The hypotheses of C155 hold in a concrete case: kilometres instead of metres and another direction of north. -/
example (x : Ext) (hls : ExactLsq x.leastsq) (nanD : List (Option ℝ) → List (Option ℝ) → Option ℝ) :
    ∃ out out', (computeCmv (sampledAt x nanD 1) threeSeries threeSites .none "gagne" "xcorr" none).1 = .ok out ∧
      (computeCmv (sampledAt x nanD 1) threeSeries (threeSites.map fun r => (r.1, turnVec (1 / 1000) (Real.pi / 6) r.2)) .none "gagne" "xcorr" none).1 = .ok out' ∧
      TurnedMotion (1 / 1000) (Real.pi / 6) (out.speed, out.angle) (out'.speed, out'.angle) := by
  obtain ⟨out, h1, h2⟩ := three_determined x hls nanD
  have hb : "xcorr".toLower = "xcorr" := by decide +kernel
  obtain ⟨out', h3, -, h4, -⟩ := C155_turned (sampledAt x nanD 1) threeSeries threeSites .none "gagne" "xcorr" none none (1 / 1000) (Real.pi / 6) (by norm_num) out h1
    (limits_none _) (by rw [hb]; exact sampledAt_fin x nanD 1) h2
  exact ⟨out, out', h1, h3, h4⟩

/-- The hypothesis on jamaly in C155 holds in a concrete case: two pairs at right angles, the same delay. -/
example : Directional [(1 / 2, (1, 0)), (1 / 2, (0, 1))] := by
  refine ⟨0, Real.pi / 4, ?_⟩
  simp only [List.map_cons, List.map_nil, apparentSpeed, Real.cos_zero, Real.sin_zero, Real.cos_pi_div_four, Real.sin_pi_div_four, variance, mean]
  norm_num

/-- The hypotheses of C156 hold in a concrete case: samples every minute instead of every second. -/
example (x : Ext) (hls : ExactLsq x.leastsq) (nanD : List (Option ℝ) → List (Option ℝ) → Option ℝ) :
    ∃ out out', (computeCmv (sampledAt x nanD 1) threeSeries threeSites .none "gagne" "xcorr" none).1 = .ok out ∧
      (computeCmv (sampledAt x (fun a b => (nanD a b).map fun t => 60 * t) (60 * 1)) threeSeries threeSites .none "gagne" "xcorr" none).1 = .ok out' ∧
      TurnedMotion (1 / 60) 0 (out.speed, out.angle) (out'.speed, out'.angle) := by
  obtain ⟨out, h1, h2⟩ := three_determined x hls nanD
  have hb : "xcorr".toLower = "xcorr" := by decide +kernel
  obtain ⟨out', h3, -, -, h4⟩ := C156_slow_motion x nanD 1 60 (by norm_num) threeSeries threeSites .none "gagne" "xcorr" hb none none out h1 (limits_none _) h2
  exact ⟨out, out', h1, h3, h4⟩

/-- The hypotheses of C157 hold in a concrete case. -/
example (x : Ext) (hls : ExactLsq x.leastsq) (nanD : List (Option ℝ) → List (Option ℝ) → Option ℝ) :
    ∃ out out', (computeCmv (sampledAt x nanD 1) threeSeries threeSites .none "gagne" "xcorr" none).1 = .ok out ∧
      (computeCmv (sampledAt x nanD 1) (threeSeries.map fun r => (r.1, r.2.reverse)) threeSites .none "gagne" "xcorr" none).1 = .ok out' ∧
      TurnedMotion (-1) 0 (out.speed, out.angle) (out'.speed, out'.angle) := by
  obtain ⟨out, h1, h2⟩ := three_determined x hls nanD
  have hb : "xcorr".toLower = "xcorr" := by decide +kernel
  obtain ⟨out', h3, -, -, h4⟩ := C157_backwards x nanD 1 threeSeries threeSites .none "gagne" "xcorr" hb none out 3 three_len three_none three_peaks h1 h2
  exact ⟨out, out', h1, h3, h4⟩

/-- The hypotheses of C158 hold in a concrete case: the tables of positions and series in the opposite order. -/
example (x : Ext) (hls : ExactLsq x.leastsq) (nanD : List (Option ℝ) → List (Option ℝ) → Option ℝ) :
    ∃ out out', (computeCmv (sampledAt x nanD 1) threeSeries threeSites .none "gagne" "xcorr" none).1 = .ok out ∧
      (computeCmv (sampledAt x nanD 1) threeSeries.reverse threeSites.reverse .none "gagne" "xcorr" none).1 = .ok out' ∧
      TurnedMotion 1 0 (out.speed, out.angle) (out'.speed, out'.angle) := by
  obtain ⟨out, h1, h2⟩ := three_determined x hls nanD
  have hb : "xcorr".toLower = "xcorr" := by decide +kernel
  obtain ⟨out', h3, -, -, h4⟩ := C158_row_order x nanD 1 threeSeries threeSeries.reverse threeSites threeSites.reverse .none .none "gagne" "xcorr" hb none out
    (List.reverse_perm _).symm (List.reverse_perm _).symm (by simp [RefArg.ids]) (by simp [threeSites]) (by simp [threeSeries]) 3 three_len three_none three_peaks h1 h2
  exact ⟨out, out', h1, h3, h4⟩

/-- The hypotheses of C159 hold in concrete cases. -/
example (x : Ext) : Function.Injective (fun i : ℕ => i + 1000) ∧
    computeCmv x ((7, [none, some 1]) :: threeSeries) threeSites .none "gagne" "xcorr" none = computeCmv x threeSeries threeSites .none "gagne" "xcorr" none :=
  ⟨fun a b h => by simpa using h, C159_extra_columns x _ _ _ _ _ _ _ (by
    intro i hi
    simp only [threeSites, List.map_cons, List.map_nil, List.mem_cons, List.not_mem_nil, or_false] at hi
    rcases hi with rfl | rfl | rfl <;> simp [dictGet?])⟩

end SST.Props.Cmv
