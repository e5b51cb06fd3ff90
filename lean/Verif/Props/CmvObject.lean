import Verif.Model.CmvObject
import Verif.Props.CmvReport
import Verif.Props.Corr
import Verif.Props.TfDelay
import Verif.Props.CmvTf

/-!
# C235, C236: the descriptions of the flags and the complete data object of `compute_cmv`
-/

namespace SST.Props.Cmv
open SST SST.Cmv SST.Spatial SST.Spec

variable {ι : Type} [DecidableEq ι]

/-! ## C235 -/

/-- C235 is violated: `Flag.DESCS` is itself a member of the enumeration, and cannot be subscripted by anything. -/
theorem C235_violated_subscript (key : FlagVal) : (FlagVal.member .descs).getItem key = .error .typeError := by cases key <;> rfl

/-- C235 is violated: a loop over `Flag` meets thirteen members, the last of which is not a flag. -/
theorem C235_violated_members : flagMembers.length = 13 ∧ flagMembers.getLast? = some .descs ∧ ∀ f, FlagMember.flag f ∈ flagMembers := by
  refine ⟨rfl, rfl, fun f => ?_⟩
  cases f <;> decide

/-- C235 is violated: the flags themselves are not keys of the dictionary behind `DESCS`, their numbers are, but the one of STATS is missing. -/
theorem C235_violated_keys (f : Flag) : FlagMember.descs.value.getItem (.member (.flag f)) = .error .keyError ∧
    FlagMember.descs.value.getItem (FlagMember.flag .stats).value = .error .keyError := ⟨rfl, rfl⟩

/-- C235, part that holds: the text found under the number of each flag. -/
theorem C235_texts_partial :
    [Flag.good, .nosignal, .lowvarS, .lowccf, .overcast, .nolag, .lowcorr, .vellimit, .allbad, .trend, .same].map (fun f => (FlagMember.descs.value.getItem (FlagMember.flag f).value).toOption) =
      [some "good data", some "one signal has zero variance, likely bogus", some "Low variation ratio in a signal", some "Low cloud cover fraction in a signal (i.e. too clear)",
        some "low overall kt in both signals", some "no lag computed (infinite velocity)", some "low lagging correlation (<0.8)", some "Jamaly and Kleissl Low velocity limit",
        some "no good datapoints", some "trend", some "pair is same site"] := by
  decide +kernel

/-- C235, part that holds: `Flag.DESCS.value[f.value]` is a text for every flag except STATS, and different flags have different texts. -/
theorem C235_descriptions_partial : (∀ f : Flag, f ≠ .stats → ∃ s, FlagMember.descs.value.getItem (FlagMember.flag f).value = .ok s ∧ s ≠ "") ∧
    ∀ (f g : Flag) (s : String), FlagMember.descs.value.getItem (FlagMember.flag f).value = .ok s →
      FlagMember.descs.value.getItem (FlagMember.flag g).value = .ok s → f = g := by
  have hval : ∀ f : Flag, FlagMember.descs.value.getItem (FlagMember.flag f).value =
      match f with
      | .good => .ok "good data"
      | .nosignal => .ok "one signal has zero variance, likely bogus"
      | .lowvarS => .ok "Low variation ratio in a signal"
      | .lowccf => .ok "Low cloud cover fraction in a signal (i.e. too clear)"
      | .overcast => .ok "low overall kt in both signals"
      | .nolag => .ok "no lag computed (infinite velocity)"
      | .lowcorr => .ok "low lagging correlation (<0.8)"
      | .stats => .error .keyError
      | .vellimit => .ok "Jamaly and Kleissl Low velocity limit"
      | .allbad => .ok "no good datapoints"
      | .trend => .ok "trend"
      | .same => .ok "pair is same site" := by
    intro f
    cases f <;> rfl
  constructor
  · intro f hf
    rw [hval]
    cases f <;> first | exact absurd rfl hf | exact ⟨_, rfl, by decide +kernel⟩
  · intro f g s hf hg
    rw [hval] at hf hg
    cases f <;> cases g <;> simp only [reduceCtorEq, Except.ok.injEq] at hf hg ⊢ <;> subst hf <;> revert hg <;> decide +kernel

theorem flag_ne_stats (method : String) (o : Dict) (p : PairStat ι) : pairFlag method o p ≠ .stats := by
  unfold pairFlag
  simp only
  split_ifs <;> simp

theorem result_ne_stats {x : Ext} {ts : List (ι × List (Option ℝ))} {pos : List (ι × Vec)} {ref : RefArg ι} {method backend : String} {options : Option Dict}
    {s θ : Option ℝ} {d : WindspeedData ι} (hout : computeCmvFull x ts pos ref method backend options = .ok (s, θ, d)) (flags : List Flag)
    (hfl : d.pairFlag = some flags) (f : Flag) (hf : d.flag = some f) : f ≠ .stats ∧ ∀ g ∈ flags, g ≠ .stats := by
  unfold computeCmvFull at hout
  cases hc : (computeCmv x ts pos ref method backend options).1 with
  | error e => rw [hc] at hout; cases hout
  | ok out =>
    rw [hc] at hout
    cases hout
    obtain ⟨stats, o, -, -, hfin, -⟩ := computeCmv_ok hc
    have h1 : out.flag = f := by
      unfold dataOf at hf
      split_ifs at hf <;> exact Option.some.inj hf
    have h2 : flags = out.rows.map Prod.snd := by
      unfold dataOf at hfl
      split_ifs at hfl <;> exact (Option.some.inj hfl).symm
    subst h1 h2
    rw [hfin]
    constructor
    · unfold finish
      simp only
      split_ifs <;> simp only [gagneSelect, ne_eq, reduceCtorEq, not_false_eq_true] <;> split_ifs <;> simp
    · rw [finish_rows]
      intro g hg
      obtain ⟨r, hr, rfl⟩ := List.mem_map.1 hg
      split_ifs at hr
      · simp only [gagneSelect, List.mem_map] at hr
        obtain ⟨q, ⟨p, -, rfl⟩, rfl⟩ := hr
        dsimp only
        split_ifs <;> first | exact flag_ne_stats _ _ _ | simp
      · obtain ⟨p, -, rfl⟩ := List.mem_map.1 hr
        exact flag_ne_stats _ _ _

/-- C235, part that holds: `compute_cmv` never reports STATS, so that its flag and the flag of every pair has a description under its
number. -/
theorem C235_result_partial (x : Ext) (ts : List (ι × List (Option ℝ))) (pos : List (ι × Vec)) (ref : RefArg ι) (method backend : String)
    (options : Option Dict) (s θ : Option ℝ) (d : WindspeedData ι) (hout : computeCmvFull x ts pos ref method backend options = .ok (s, θ, d)) :
    ∃ f flags, d.flag = some f ∧ d.pairFlag = some flags ∧
      ∀ g ∈ f :: flags, ∃ t, FlagMember.descs.value.getItem (FlagMember.flag g).value = .ok t ∧ t ≠ "" := by
  have hex : ∃ f flags, d.flag = some f ∧ d.pairFlag = some flags := by
    unfold computeCmvFull at hout
    cases hc : (computeCmv x ts pos ref method backend options).1 with
    | error e => rw [hc] at hout; cases hout
    | ok out =>
      rw [hc] at hout
      cases hout
      unfold dataOf
      split_ifs <;> exact ⟨_, _, rfl, rfl⟩
  obtain ⟨f, flags, hf, hfl⟩ := hex
  obtain ⟨h1, h2⟩ := result_ne_stats hout flags hfl f hf
  refine ⟨f, flags, hf, hfl, fun g hg => C235_descriptions_partial.1 g ?_⟩
  rcases List.mem_cons.1 hg with rfl | hg
  · exact h1
  · exact h2 g hg

/-! ## C236 -/

theorem object_full {x : Ext} {ex : Extras} {ts : List (ι × List (Option ℝ))} {pos : List (ι × Vec)} {ref : RefArg ι} {method backend : String}
    {options : Option Dict} {s θ : Option ℝ} {o : FullObject ι} (hout : computeCmvObject x ex ts pos ref method backend options = .ok (s, θ, o)) :
    computeCmvFull x ts pos ref method backend options = .ok (s, θ, o.base) := by
  unfold computeCmvObject at hout
  unfold computeCmvFull
  cases hc : (computeCmv x ts pos ref method backend options).1 with
  | error e => rw [hc] at hout; cases hout
  | ok out =>
    rw [hc] at hout
    cases hout
    unfold fullObject
    simp only [Except.map]
    split_ifs <;> rfl

/-- C236: `to_dict` of a result with at least two GOOD pairs holds the eleven fields in the order of the class, none twice; speed, direction
and all lists are filled, `pair_coh` only with backend 'tf'. -/
theorem C236_dictionary (x : Ext) (ex : Extras) (ts : List (ι × List (Option ℝ))) (pos : List (ι × Vec)) (ref : RefArg ι) (method backend : String)
    (options : Option Dict) (s θ : Option ℝ) (o : FullObject ι) (hout : computeCmvObject x ex ts pos ref method backend options = .ok (s, θ, o))
    (flags : List Flag) (hfl : ("pair_flag", FieldVal.flags flags) ∈ o.toDict) (h2 : 2 ≤ flags.count .good) :
    ∃ (raw lag lags dists : List (Option ℝ)) (coh : FieldVal ι) (pairs : List (ι × ι)) (f : Flag) (md : Option MethodData),
      o.toDict = [("corr_raw", .floats raw), ("corr_lag", .floats lag), ("allpairs", .pairs pairs), ("pair_lag", .floats lags), ("pair_coh", coh),
        ("pair_dists", .floats dists), ("wind_speed", .float s), ("wind_angle", .float θ), ("pair_flag", .flags flags), ("flag", .flag f),
        ("method_data", .method md)] ∧
      (backend.toLower = "xcorr" → coh = .none) ∧
      (backend.toLower = "tf" → ∃ c, coh = .floats c ∧ c.length = pairs.length ∧
        ∀ (n : ℕ) (a b : ι), pairs[n]? = some (a, b) → ∃ sa sb, (a, sa) ∈ ts ∧ (b, sb) ∈ ts ∧ c[n]? = some (ex "tf" sa sb).2) ∧
      raw.length = pairs.length ∧
      ∀ (n : ℕ) (a b : ι), pairs[n]? = some (a, b) → ∃ sa sb, (a, sa) ∈ ts ∧ (b, sb) ∈ ts ∧ raw[n]? = some (ex backend.toLower sa sb).1 := by
  have hfull := object_full hout
  have hpf : o.base.pairFlag = some flags := by
    simp only [FullObject.toDict, objectFields, List.map_cons, List.map_nil, List.mem_cons, Prod.mk.injEq, List.not_mem_nil, or_false] at hfl
    have : o.getattr "pair_flag" = .flags flags := by
      revert hfl
      simp only [show ("pair_flag" = "corr_raw") = False by simp, show ("pair_flag" = "corr_lag") = False by simp,
        show ("pair_flag" = "allpairs") = False by simp, show ("pair_flag" = "pair_lag") = False by simp,
        show ("pair_flag" = "pair_coh") = False by simp, show ("pair_flag" = "pair_dists") = False by simp,
        show ("pair_flag" = "wind_speed") = False by simp, show ("pair_flag" = "wind_angle") = False by simp,
        show ("pair_flag" = "flag") = False by simp, show ("pair_flag" = "method_data") = False by simp, false_and, false_or, or_false, true_and]
      exact fun h => h.symm
    unfold FullObject.getattr at this
    simp only at this
    cases hb : o.base.pairFlag with
    | none => rw [hb] at this; simp at this
    | some l => rw [hb] at this; simp at this; rw [this]
  obtain ⟨hs, hθ, hf, pairs, lags, corrs, dists, h1, h3, h4, h5, -⟩ := C163_data_object_partial x ts pos ref method backend options s θ o.base hfull flags hpf h2
  cases hfd : o.base.flag with
  | none => exact absurd hfd hf
  | some f =>
    have hbe : backend.toLower = "xcorr" ∨ backend.toLower = "tf" := by
      unfold computeCmvObject at hout
      cases hc : (computeCmv x ts pos ref method backend options).1 with
      | error e => rw [hc] at hout; cases hout
      | ok out =>
        obtain ⟨stats, -, hprep, -⟩ := computeCmv_ok hc
        unfold prepare at hprep
        simp only at hprep
        split_ifs at hprep with hm hb
        simpa using hb
    unfold computeCmvObject at hout
    cases hc : (computeCmv x ts pos ref method backend options).1 with
    | error e => rw [hc] at hout; cases hout
    | ok out =>
      rw [hc] at hout
      simp only [Except.map, Except.ok.injEq, Prod.mk.injEq] at hout
      obtain ⟨rfl, rfl, rfl⟩ := hout
      have hbase : (fullObject x ex method.toLower backend.toLower out).base = dataOf x method.toLower out := by
        unfold fullObject
        split_ifs <;> rfl
      rw [hbase] at hpf hs hθ h1 h3 h4 h5 hfd
      obtain ⟨-, hlen⟩ := flags_good x _ out flags hpf
      have hbig : ¬ (goodPairs out.rows).length ≤ 1 := by omega
      have hobj : fullObject x ex method.toLower backend.toLower out = ⟨some (out.rows.map fun r => (ex backend.toLower r.1.sigA r.1.sigB).1),
          if backend.toLower = "tf" then some (out.rows.map fun r => (ex backend.toLower r.1.sigA r.1.sigB).2) else none, true, dataOf x method.toLower out⟩ := by
        unfold fullObject
        rw [if_neg hbig]
      have hpr : pairs = out.rows.map fun r => (r.1.a, r.1.b) := by
        unfold dataOf at h1
        rw [if_neg hbig] at h1
        exact (Option.some.inj h1).symm
      have hsig : ∀ r ∈ out.rows, (r.1.a, r.1.sigA) ∈ ts ∧ (r.1.b, r.1.sigB) ∈ ts := by
        intro r hr
        obtain ⟨p, hp⟩ := SST.Props.CmvTf.rows_statOf hc r hr
        unfold statOf at hp
        split at hp
        · rename_i sa sb pa pb e1 e2 e3 e4
          have := Except.ok.inj hp
          rw [← this]
          exact ⟨SST.Props.Cmv.dictGet?_mem e1, SST.Props.Cmv.dictGet?_mem e2⟩
        · cases hp
      have hget : ∀ (g : Option ℝ × Option ℝ → Option ℝ) (n : ℕ) (a b : ι), pairs[n]? = some (a, b) → ∃ sa sb, (a, sa) ∈ ts ∧ (b, sb) ∈ ts ∧
          (out.rows.map fun r => g (ex backend.toLower r.1.sigA r.1.sigB))[n]? = some (g (ex backend.toLower sa sb)) := by
        intro g n a b hn
        rw [hpr, List.getElem?_map, Option.map_eq_some_iff] at hn
        obtain ⟨r, hr, hab⟩ := hn
        cases hab
        refine ⟨r.1.sigA, r.1.sigB, (hsig r (List.mem_of_getElem? hr)).1, (hsig r (List.mem_of_getElem? hr)).2, ?_⟩
        rw [List.getElem?_map, hr]
        rfl
      refine ⟨out.rows.map fun r => (ex backend.toLower r.1.sigA r.1.sigB).1, corrs, lags, dists,
        if backend.toLower = "tf" then .floats (out.rows.map fun r => (ex backend.toLower r.1.sigA r.1.sigB).2) else .none, pairs, f,
        (dataOf x method.toLower out).methodData, ?_, ?_, ?_, ?_, hget Prod.fst⟩
      · rw [hobj]
        simp only [FullObject.toDict, objectFields, List.map_cons, List.map_nil, FullObject.getattr, h1, h3, h4, h5, hfd, hs, hθ, hpf, Option.elim_some, if_true]
        split_ifs <;> rfl
      · intro hb
        rw [if_neg (by rw [hb]; decide +kernel)]
      · intro hb
        refine ⟨_, if_pos hb, by simp [hpr], ?_⟩
        intro n a b hn
        obtain ⟨sa, sb, u1, u2, u3⟩ := hget Prod.snd n a b hn
        rw [hb] at u3
        refine ⟨sa, sb, u1, u2, ?_⟩
        rw [hb]
        exact u3
      · simp [hpr]

/-- C236: with at most one GOOD pair only the pairs, their flags and the overall flag ALLBAD are filled. -/
theorem C236_null_result (x : Ext) (ex : Extras) (ts : List (ι × List (Option ℝ))) (pos : List (ι × Vec)) (ref : RefArg ι) (method backend : String)
    (options : Option Dict) (s θ : Option ℝ) (o : FullObject ι) (hout : computeCmvObject x ex ts pos ref method backend options = .ok (s, θ, o))
    (flags : List Flag) (hfl : o.base.pairFlag = some flags) (h2 : flags.count .good ≤ 1) :
    ∃ pairs, o.toDict = [("corr_raw", .none), ("corr_lag", .none), ("allpairs", .pairs pairs), ("pair_lag", .none), ("pair_coh", .none),
        ("pair_dists", .none), ("wind_speed", .none), ("wind_angle", .none), ("pair_flag", .flags flags), ("flag", .flag .allbad),
        ("method_data", .none)] := by
  obtain ⟨-, -, hf, hs, hθ, hl, hd, hc', -⟩ := C163_violated_null_result x ts pos ref method backend options s θ o.base (object_full hout) flags hfl h2
  obtain ⟨pairs, fl, -, hp, -⟩ := C163_pairs x ts pos ref method backend options s θ o.base (object_full hout)
  have hraw : o.corrRaw = none ∧ o.pairCoh = none ∧ o.hasMethodData = false := by
    unfold computeCmvObject at hout
    cases hc : (computeCmv x ts pos ref method backend options).1 with
    | error e => rw [hc] at hout; cases hout
    | ok out =>
      rw [hc] at hout
      simp only [Except.map, Except.ok.injEq, Prod.mk.injEq] at hout
      obtain ⟨-, -, rfl⟩ := hout
      have hbase : (fullObject x ex method.toLower backend.toLower out).base = dataOf x method.toLower out := by
        unfold fullObject
        split_ifs <;> rfl
      rw [hbase] at hfl
      obtain ⟨-, hlen⟩ := flags_good x _ out flags hfl
      have hbig : (goodPairs out.rows).length ≤ 1 := by omega
      unfold fullObject
      rw [if_pos hbig]
      exact ⟨rfl, rfl, rfl⟩
  refine ⟨pairs, ?_⟩
  simp only [FullObject.toDict, objectFields, List.map_cons, List.map_nil, FullObject.getattr, hf, hs, hθ, hl, hd, hc', hp, hfl, hraw.1, hraw.2.1, hraw.2.2,
    Option.elim_some, Option.elim_none]
  rfl

/-- C236: `corr_raw` of two complete, non-constant signals is their coefficient of correlation, with both backends; with 'tf' the mean coherence
is a number from 0 to 1. -/
theorem C236_values (ham : ℕ → List ℝ) (dt : ℝ) (hdt : 0 < dt) (u v : List ℝ) (hl : u.length = v.length) (h5 : 5 ≤ u.length) (hu : ¬ IsConst u) (hv : ¬ IsConst v) :
    (extrasOf ham dt "xcorr" (u.map some) (v.map some)).1 = some (xcorrAt (demean u) (demean v) 0 / normOf "coeff" u v) ∧
    (extrasOf ham dt "tf" (u.map some) (v.map some)).1 = some (xcorrAt (demean u) (demean v) 0 / normOf "coeff" u v) ∧
    ∃ c, (extrasOf ham dt "tf" (u.map some) (v.map some)).2 = some c ∧ 0 ≤ c ∧ c ≤ 1 := by
  have hd : ∀ w : List ℝ, (w.map some).filterMap id = w := fun w => by simp [List.filterMap_map]
  have hpos : 0 < normOf "coeff" u v := by
    have h1 := SST.Corr.den_pos hu hv
    have h2 := SST.Corr.divisor_norm "coeff" u v hl
    rw [SST.Corr.divisor_coeff] at h2
    rwa [h2] at h1
  refine ⟨?_, ?_⟩
  · unfold extrasOf
    rw [if_neg (by simp), if_pos rfl, hd, hd, SST.Corr.computeDelays_equal (ins := [u]) (outs := [v]) rfl (Or.inl rfl) (Or.inl rfl)]
    obtain ⟨lag, -, -, h3⟩ := SST.Corr.pair_spec (mode := "loop") (Or.inl rfl) dt "coeff" u v hl (by rintro rfl; simp at h5)
    simp only [List.zipWith_cons_cons, List.zipWith_nil_left]
    rw [(SST.Corr.dropWeak_meanCorr _).2.2, h3]
    simp only [XR.div, if_neg hpos.ne', finiteOf, conditioned, if_true]
  · have hok : ∃ r, Tf.computeDelaysTf ⟨dt, 5, 0.5, ham, .none⟩ [("A", u)] [("B", v)] (some 0.6) (some 0.02) "multi" = .ok [r] := by
      have hL : 0 < u.length / 5 := Nat.div_pos h5 (by norm_num)
      have hov : ¬ ((u.length / 5 : ℕ) : ℤ) ≤ pyInt ((u.length / 5 : ℕ) * 0.5) := by
        have : (0 : ℝ) < (u.length / 5 : ℕ) := by exact_mod_cast hL
        rw [pyInt, if_pos (by positivity), not_le, Int.floor_lt, Int.cast_natCast]
        linarith
      have e : ∃ t, Tf.averagedTf ⟨dt, 5, 0.5, ham, .none⟩ [("A", u)] [("B", v)] = .ok [t] :=
        ⟨_, if_neg (not_or.2 ⟨hL.ne', hov⟩)⟩
      obtain ⟨t, ht⟩ := e
      unfold Tf.computeDelaysTf
      rw [if_neg (by simp)]
      dsimp only
      rw [ht]
      dsimp only
      rw [if_neg (by rintro ⟨h, -⟩; revert h; decide +kernel), if_neg (by simp)]
      exact ⟨_, rfl⟩
    obtain ⟨r, hr⟩ := hok
    obtain ⟨p, hp, -⟩ := SST.Props.Tf.C102_extras dt hdt u v hl hu hv r.1
    have hc := SST.Props.Tf.C100_mean_coherence _ u.length _ _ (by simp) (by simp [hl]) (by exact hdt) _ _ _ _ hr r (by simp)
    obtain ⟨c, hc1, hc2, hc3⟩ := hc.1 (by norm_num)
    unfold extrasOf
    rw [if_neg (by simp), if_neg (by decide +kernel), hd, hd, hr]
    simp only [hp, hc1, finiteOf]
    exact ⟨trivial, c, rfl, hc2, hc3⟩

/-- Two complete, non-constant signals. -/
example : ¬ IsConst ([0, 1, 2, 3, 4] : List ℝ) ∧ ¬ IsConst ([0, 1, 0, 1, 1] : List ℝ) := by
  constructor <;> intro h <;> have := h 0 (by simp) 1 (by simp) <;> norm_num at this

/-- The hypotheses of C235 and C236 hold in a concrete case: a wave seen at several sites. -/
example (l : List (Option ℝ × Vec) → Vec) (m : (ℝ → Option ℝ) → ℝ) (ex : Extras) :
    ∃ s θ o flags, computeCmvObject (exExt l m) ex exTs exPos (.one 0) "gagne" "xcorr" none = .ok (s, θ, o) ∧
      ("pair_flag", FieldVal.flags flags) ∈ o.toDict ∧ 2 ≤ flags.count .good := by
  obtain ⟨out, h1, -, r, hr, s, hs, gr, gs, hi⟩ := ex_wave_gagne l m
  refine ⟨out.speed, out.angle, fullObject (exExt l m) ex "gagne".toLower "xcorr".toLower out, out.rows.map Prod.snd, ?_, ?_, ?_⟩
  · unfold computeCmvObject
    rw [h1]
    rfl
  · have hb : (fullObject (exExt l m) ex "gagne".toLower "xcorr".toLower out).base.pairFlag = some (out.rows.map Prod.snd) := by
      unfold fullObject
      split_ifs <;> (unfold dataOf; split_ifs <;> rfl)
    simp only [FullObject.toDict, objectFields, List.map_cons, FullObject.getattr, hb, Option.elim_some, List.mem_cons, true_or, or_true]
  · rw [List.count, List.countP_map, List.countP_eq_length_filter]
    have hr' : r ∈ out.rows.filter ((fun b => b == Flag.good) ∘ Prod.snd) := List.mem_filter.2 ⟨hr, by simpa using gr⟩
    have hs' : s ∈ out.rows.filter ((fun b => b == Flag.good) ∘ Prod.snd) := List.mem_filter.2 ⟨hs, by simpa using gs⟩
    generalize (out.rows.filter ((fun b => b == Flag.good) ∘ Prod.snd)) = L at hr' hs'
    match L with
    | [] => cases hr'
    | [y] =>
      rw [List.mem_singleton.1 hr', List.mem_singleton.1 hs'] at hi
      exact (hi (by ring)).elim
    | _ :: _ :: _ => simp

end SST.Props.Cmv
