import Verif.Spec.Args
import Verif.Props.Cmv
import Verif.Props.Spatial
import Verif.Props.CloudRandom

/-! # Properties C147-C153: the kinds of arguments the documentation allows -/

namespace SST.Props.Args
open SST SST.Args SST.Spec SST.Spatial SST.Tf SST.Filters SST.Cmv SST.Dft SST.Props.Cmv

section refs
variable {ι : Type} [DecidableEq ι]

/-! ## C147 -/

theorem selectPairs_sized (l : List ι) (ps : List (ι × ι)) :
    selectPairs (.sized l) ps = ps.filter fun p => decide (p.1 ∈ l ∨ p.2 ∈ l) := by
  induction ps with
  | nil => rfl
  | cons p ps ih =>
    unfold selectPairs
    by_cases h1 : p.1 ∈ l
    · simp [Refs.contains, h1, ih]
    · by_cases h2 : p.2 ∈ l
      · simp [Refs.contains, h1, h2, ih]
      · simp [Refs.contains, h1, h2, ih]

/-- C147 (the part that holds): a list, tuple, array or set of ids as `reference_id` is what `Cmv.computeCmv` describes.
Full claim: the same for every iterable, with the ids it yields in place of `l`. -/
theorem C147_sized_partial (x : Ext) (ts : List (ι × List (Option ℝ))) (pos : List (ι × Vec)) (l : List ι) (method backend : String)
    (options : Option Dict) : computeCmvRefs x ts pos (.sized l) method backend options = computeCmv x ts pos (.many l) method backend options := by
  unfold computeCmvRefs computeCmv prepare
  rw [selectPairs_sized]
  by_cases h1 : method.toLower ∉ ["jamaly", "gagne"]
  · rw [if_pos h1, if_pos h1]
  · rw [if_neg h1, if_neg h1]
    by_cases h2 : backend.toLower ∉ ["xcorr", "tf"]
    · rw [if_pos h2, if_pos h2]
    · rw [if_neg h2, if_neg h2]
      have e : getPairs (pos.map Prod.fst) (some ((RefArg.many l).ids (pos.map Prod.fst))) true =
          (combosRepl (pos.map Prod.fst)).filter fun p => decide (p.1 ∈ l ∨ p.2 ∈ l) := rfl
      simp only [e]
      by_cases h3 : ((combosRepl (pos.map Prod.fst)).filter fun p => decide (p.1 ∈ l ∨ p.2 ∈ l)) = []
      · simp only [if_pos h3]
      · simp only [if_neg h3]
        rfl

/-- Four sites with one reference site: the list gives four pairs, three of them with another site. -/
example : selectPairs (.sized [2]) (combosRepl [1, 2, 3, 4]) = [(1, 2), (2, 2), (2, 3), (2, 4)] := by decide

theorem selectPairs_once (l : List ι) (ps : List (ι × ι)) : (selectPairs (.once l) ps).length ≤ l.length := by
  have le : ∀ (m : List ι) (y : ι), (dropThrough y m).length + (if y ∈ m then 1 else 0) ≤ m.length := by
    intro m y
    induction m with
    | nil => simp [dropThrough]
    | cons a m ih =>
      unfold dropThrough
      by_cases h : a = y
      · simp [h]
      · have : (y ∈ a :: m) ↔ y ∈ m := by simp [Ne.symm h]
        rw [if_neg h, List.length_cons]
        simp only [this]
        omega
  induction ps generalizing l with
  | nil => simp [selectPairs]
  | cons p ps ih =>
    unfold selectPairs
    simp only [Refs.contains, decide_eq_true_eq]
    by_cases h1 : p.1 ∈ l
    · rw [if_pos h1, List.length_cons]
      have := le l p.1
      rw [if_pos h1] at this
      have := ih (dropThrough p.1 l)
      omega
    · rw [if_neg h1]
      have hle := le l p.1
      by_cases h2 : p.2 ∈ dropThrough p.1 l
      · rw [if_pos h2, List.length_cons]
        have := le (dropThrough p.1 l) p.2
        rw [if_pos h2] at this
        have := ih (dropThrough p.2 (dropThrough p.1 l))
        omega
      · rw [if_neg h2]
        have := ih (dropThrough p.2 (dropThrough p.1 l))
        have := le (dropThrough p.1 l) p.2
        omega

theorem mapM_len {α β : Type} {f : α → Except PyErr β} : ∀ {l : List α} {r : List β}, l.mapM f = .ok r → r.length = l.length := by
  intro l
  induction l with
  | nil => intro r h; rw [List.mapM_nil] at h; cases h; rfl
  | cons a l ih =>
    intro r h
    rw [List.mapM_cons] at h
    cases ha : f a with
    | error e => rw [ha] at h; cases h
    | ok b =>
      cases hl : l.mapM f with
      | error e => rw [ha, hl] at h; cases h
      | ok bs =>
        rw [ha, hl] at h
        cases h
        simp [ih hl]

/-- C147 is violated for an iterator or generator: it is used up while the pairs are selected, so at most as many pairs are
evaluated as it yields ids (a list of the same ids gives all pairs with one of them); with one reference site the answer is the
null result "no good pair", whatever the data are. -/
theorem C147_violated_generator (x : Ext) (ts : List (ι × List (Option ℝ))) (pos : List (ι × Vec)) (l : List ι) (method backend : String)
    (options : Option Dict) (out : Cmv.Out ι) (h : (computeCmvRefs x ts pos (.once l) method backend options).1 = .ok out) :
    out.rows.length ≤ l.length ∧ (l.length ≤ 1 → out.speed = some 0 ∧ out.angle = some 0 ∧ out.flag = .allbad) := by
  unfold computeCmvRefs at h
  split_ifs at h with h1 h2
  simp only at h
  split_ifs at h with h3
  cases hm : (selectPairs (.once l) (combosRepl (pos.map Prod.fst))).mapM (statOf x ts pos backend.toLower) with
  | error e => rw [hm] at h; cases h
  | ok stats =>
    rw [hm] at h
    simp only at h
    cases hv : (validateOptions method.toLower options).1 with
    | error e => rw [hv] at h; cases h
    | ok o =>
      rw [hv] at h
      have hout : finish x method.toLower o stats = out := Except.ok.inj h
      have hlen : stats.length ≤ l.length := (mapM_len hm).le.trans (selectPairs_once l _)
      have hrows : out.rows.length = stats.length := by
        have := congrArg List.length (finish_rows x method.toLower o stats)
        rw [hout] at this
        rw [this]
        split_ifs <;> simp [gagneSelect]
      refine ⟨by omega, fun h1 => ?_⟩
      have hg : (goodPairs (if method.toLower = "gagne" then gagneSelect (stats.map fun p => (p, pairFlag method.toLower o p))
          else (Flag.good, stats.map fun p => (p, pairFlag method.toLower o p))).2).length ≤ 1 := by
        unfold goodPairs
        rw [List.length_map]
        refine (List.length_filter_le _ _).trans ?_
        split_ifs
        · simp [gagneSelect]; omega
        · simp; omega
      rw [← hout]
      unfold finish
      simp only
      rw [if_pos hg]
      exact ⟨rfl, rfl, rfl⟩

/-- A generator over the first site: the pair of the site with itself is all that is left of the four pairs. -/
example : selectPairs (.once [1]) (combosRepl [1, 2, 3, 4]) = [(1, 1)] := by decide

example (x : Ext) : ∃ out, (computeCmvRefs x [(1, [some 1, some 0]), (2, [some 0, some 1])] [(1, (0, 0)), (2, (10, 0))] (.once [1]) "gagne" "xcorr"
    none).1 = .ok out := by
  have e1 : ("gagne".toLower = "gagne") := by decide +kernel
  have e2 : ("xcorr".toLower = "xcorr") := by decide +kernel
  have e3 : selectPairs (.once [1]) (combosRepl [1, 2]) = [(1, 1)] := by decide
  unfold computeCmvRefs
  rw [e1, e2]
  simp only [List.map_cons, List.map_nil, e3]
  exact ⟨_, rfl⟩

/-- C147 is violated for an iterator over one id other than the first site: the call fails with `IndexError`. -/
theorem C147_violated_generator_one (x : Ext) (ts : List (ι × List (Option ℝ))) (a r : ι) (p : Vec) (pos : List (ι × Vec)) (method backend : String)
    (options : Option Dict) (hm : method.toLower ∈ ["jamaly", "gagne"]) (hb : backend.toLower ∈ ["xcorr", "tf"]) (hr : r ≠ a) :
    Raises (computeCmvRefs x ts ((a, p) :: pos) (.once [r]) method backend options).1 .indexError := by
  have h0 : ∀ ps : List (ι × ι), selectPairs (.once []) ps = [] := by
    intro ps
    have := selectPairs_once ([] : List ι) ps
    exact List.length_eq_zero_iff.1 (by simpa using this)
  have n1 : decide (a ∈ [r]) = false := by simpa using hr.symm
  have n2 : decide (a ∈ ([] : List ι)) = false := by simp
  unfold Raises computeCmvRefs
  rw [if_neg (not_not.2 hm), if_neg (not_not.2 hb)]
  simp only [List.map_cons, combosRepl, List.cons_append, selectPairs, Refs.contains, n1, n2, dropThrough, if_neg hr, Bool.false_eq_true, if_false, h0,
    if_true]

example : "Gagne".toLower ∈ ["jamaly", "gagne"] ∧ "xcorr".toLower ∈ ["xcorr", "tf"] ∧ (2 : ℕ) ≠ 1 := by decide +kernel

/-- C147 is violated for a pandas Series of ids: its labels are looked at instead; if they are no site ids (say, 0, 1, 2, ... against
names), the call fails. -/
theorem C147_violated_series (x : Ext) (ts : List (ι × List (Option ℝ))) (pos : List (ι × Vec)) (l : List (ι × ι)) (method backend : String)
    (options : Option Dict) (hm : method.toLower ∈ ["jamaly", "gagne"]) (hb : backend.toLower ∈ ["xcorr", "tf"])
    (hl : ∀ q ∈ l, q.1 ∉ pos.map Prod.fst) : Raises (computeCmvRefs x ts pos (.series l) method backend options).1 .indexError := by
  have key : ∀ ps : List (ι × ι), (∀ p ∈ ps, p.1 ∈ pos.map Prod.fst ∧ p.2 ∈ pos.map Prod.fst) → selectPairs (.series l) ps = [] := by
    intro ps hps
    induction ps with
    | nil => rfl
    | cons p ps ih =>
      have h0 := hps p List.mem_cons_self
      have n1 : p.1 ∉ l.map Prod.fst := by
        intro hc
        obtain ⟨q, hq, e⟩ := List.mem_map.1 hc
        exact hl q hq (e ▸ h0.1)
      have n2 : p.2 ∉ l.map Prod.fst := by
        intro hc
        obtain ⟨q, hq, e⟩ := List.mem_map.1 hc
        exact hl q hq (e ▸ h0.2)
      unfold selectPairs
      simp only [Refs.contains, decide_eq_false n1, decide_eq_false n2, Bool.false_eq_true, if_false]
      exact ih fun q hq => hps q (List.mem_cons_of_mem _ hq)
  unfold Raises computeCmvRefs
  rw [if_neg (not_not.2 hm), if_neg (not_not.2 hb)]
  simp only
  rw [if_pos]
  apply key
  intro p hp
  have : ∀ (l : List ι) (p : ι × ι), p ∈ combosRepl l → p.1 ∈ l ∧ p.2 ∈ l := by
    intro l
    induction l with
    | nil => intro p hp; cases hp
    | cons a l ih =>
      intro p hp
      rcases List.mem_append.1 hp with hp | hp
      · obtain ⟨y, hy, rfl⟩ := List.mem_map.1 hp
        exact ⟨List.mem_cons_self, hy⟩
      · exact ⟨List.mem_cons_of_mem _ (ih p hp).1, List.mem_cons_of_mem _ (ih p hp).2⟩
  exact this _ p hp

/-- A Series of the names "b", "c" with the labels "0", "1". -/
example : ∀ q ∈ [("0", "b"), ("1", "c")], q.1 ∉ [("a", ((0 : ℝ), (0 : ℝ))), ("b", (1, 0)), ("c", (0, 1))].map Prod.fst := by simp

/-! ## C152 -/

/-- C152 is violated: a call with valid names sets the reactions to division by zero and to invalid operations to 'ignore' for the rest
of the process, whatever the caller had chosen, and whether or not the call succeeds. -/
theorem C152_violated (x : Ext) (ts : List (ι × List (Option ℝ))) (pos : List (ι × Vec)) (ref : RefArg ι) (method backend : String)
    (options : Option Dict) (hm : method.toLower ∈ ["jamaly", "gagne"]) (hb : backend.toLower ∈ ["xcorr", "tf"]) (s : NpErr) :
    (computeCmvErr x ts pos ref method backend options s).2.divide = .ignore ∧
    (computeCmvErr x ts pos ref method backend options s).2.invalid = .ignore := by
  unfold computeCmvErr
  simp only
  rw [if_neg (not_not.2 hm), if_neg (not_not.2 hb)]
  exact ⟨rfl, rfl⟩

example : "Gagne".toLower ∈ ["jamaly", "gagne"] ∧ "tf".toLower ∈ ["xcorr", "tf"] := by decide +kernel

/-- C152 (the part that holds): the reactions to overflow and underflow stay; a call rejected for its names changes nothing. -/
theorem C152_rest_partial (x : Ext) (ts : List (ι × List (Option ℝ))) (pos : List (ι × Vec)) (ref : RefArg ι) (method backend : String)
    (options : Option Dict) (s : NpErr) :
    (computeCmvErr x ts pos ref method backend options s).2.over = s.over ∧ (computeCmvErr x ts pos ref method backend options s).2.under = s.under ∧
    ((method.toLower ∉ ["jamaly", "gagne"] ∨ backend.toLower ∉ ["xcorr", "tf"]) →
      (computeCmvErr x ts pos ref method backend options s).2 = s ∧ Raises (computeCmvErr x ts pos ref method backend options s).1.1 .valueError) := by
  unfold computeCmvErr
  simp only
  refine ⟨by split_ifs <;> rfl, by split_ifs <;> rfl, fun h => ?_⟩
  unfold Raises computeCmv prepare
  by_cases h1 : method.toLower ∉ ["jamaly", "gagne"]
  · simp only [if_pos h1, and_self]
  · have h2 := h.resolve_left h1
    simp only [if_neg h1, if_pos h2, and_self]

example : "Jamaly ".toLower ∉ ["jamaly", "gagne"] := by decide +kernel

end refs

/-! ## C148 -/

/-- C148 (the part that holds): a frame with one column is rotated value by value.
Full claim: every column of a frame is, and the result is a frame. -/
theorem C148_one_column_partial (rows : List (ℝ × List ℂ)) (delay : ℝ) (h : ∀ r ∈ rows, r.2.length = 1) :
    ∃ out, applyDelayFrame rows delay = .ok out ∧ out.length = rows.length ∧
      ∀ (i : ℕ) (f : ℝ) (v : ℂ), rows[i]? = some (f, [v]) → out[i]? = some (v * Complex.exp (-(2 * Real.pi * f * delay : ℝ) * Complex.I)) := by
  have hl : rows.flatMap Prod.snd = rows.map fun r => r.2.headD 0 := by
    induction rows with
    | nil => rfl
    | cons r rows ih =>
      have h1 := h r List.mem_cons_self
      obtain ⟨v, hv⟩ := List.length_eq_one_iff.1 h1
      rw [List.flatMap_cons, ih fun q hq => h q (List.mem_cons_of_mem _ hq), List.map_cons, hv]
      rfl
  unfold applyDelayFrame bmul
  rw [hl, if_pos (by simp)]
  refine ⟨_, rfl, by simp, ?_⟩
  intro i f v hi
  rw [List.getElem?_zipWith, List.getElem?_map, List.getElem?_map, hi]
  simp only [Option.map_some, List.headD_cons]
  congr 2
  congr 1
  push_cast
  ring

example : ∀ r ∈ [((0 : ℝ), [(1 : ℂ)]), (0.1, [Complex.I])], r.2.length = 1 := by simp

/-- C148 is violated: a transfer function with at least two columns and two frequencies, as `averaged_tf` returns for several sites,
is rejected. -/
theorem C148_violated (rows : List (ℝ × List ℂ)) (delay : ℝ) (k : ℕ) (hk : 2 ≤ k) (hn : 2 ≤ rows.length) (h : ∀ r ∈ rows, r.2.length = k) :
    Raises (applyDelayFrame rows delay) .valueError := by
  have hl : (rows.flatMap Prod.snd).length = rows.length * k := by
    clear hn
    induction rows with
    | nil => simp
    | cons r rows ih =>
      rw [List.flatMap_cons, List.length_append, h r List.mem_cons_self, ih fun q hq => h q (List.mem_cons_of_mem _ hq), List.length_cons]
      ring
  have hbig : 2 * rows.length ≤ rows.length * k := by nlinarith
  unfold Raises applyDelayFrame bmul
  set a := rows.flatMap Prod.snd with ha
  set b := rows.map fun r : ℝ × List ℂ => Complex.exp (2 * Real.pi * Complex.I * r.1 * (-delay)) with hb
  have hbl : b.length = rows.length := by simp [hb]
  rw [if_neg (by omega)]
  have ha2 : 2 ≤ a.length := by omega
  have hb2 : 2 ≤ b.length := by omega
  clear_value a b
  match a, b, ha2, hb2 with
  | _ :: _ :: _, _ :: _ :: _, _, _ => rfl

/-- Two sites, three frequencies. -/
example : ∀ r ∈ [((0 : ℝ), [(1 : ℂ), 1]), (0.1, [Complex.I, 1]), (0.2, [0, 1])], r.2.length = 2 := by simp

/-! ## C149 -/

/-- C149 (the part that holds): unless integer centres meet a float reference, the type of the numbers does not matter.
Full claim: without that restriction. -/
theorem C149_types_partial (centers : NArr) (ref : NNum) (width : Option ℝ) (shape : String) (dx xmax : ℝ)
    (h : ∀ l v, ¬ (centers = .ints l ∧ ref = .float v)) :
    get1dPlantTyped centers ref width shape dx xmax = get1dPlant centers.vals ref.val width shape dx xmax := by
  have key : ∀ cs cs' : List ℝ, ∀ r r' : ℝ, (cs.map fun c => c - r) = (cs'.map fun c => c - r') →
      get1dPlant cs r width shape dx xmax = get1dPlant cs' r' width shape dx xmax := by
    intro cs cs' r r' e
    unfold get1dPlant
    rw [e]
  cases centers with
  | ints l =>
    cases ref with
    | int k =>
      simp only [get1dPlantTyped, NArr.isub]
      apply key
      simp [NArr.vals, NNum.val, Function.comp_def]
    | float v => exact absurd ⟨rfl, rfl⟩ (h l v)
  | floats l =>
    simp only [get1dPlantTyped, NArr.isub]
    apply key
    simp [NArr.vals, Function.comp_def]

example : ∀ l v, ¬ (NArr.ints [0, 100] = .ints l ∧ NNum.int 50 = .float v) := by simp

/-- C149 is violated: integer centres with a float as reference, even 0.0, raise `TypeError`. -/
theorem C149_violated (l : List ℤ) (v : ℝ) (width : Option ℝ) (shape : String) (dx xmax : ℝ) :
    Raises (get1dPlantTyped (.ints l) (.float v) width shape dx xmax) .typeError := rfl

/-! ## C150 -/

/-- C150 (the part that holds): if all sites and the reference lie in one zone and one hemisphere, giving latitudes and longitudes is the
same as giving the coordinates in that zone. -/
theorem C150_one_zone_partial (P : Projector) (sites : List (ℝ × ℝ)) (speed : ℝ) (dir ref : ℝ × ℝ) (width : Option ℝ) (shape : String) (dx xmax : ℝ)
    (z : ℤ) (south : Bool) (hz : ∀ s ∈ ref :: sites, calcZone s.2 = z) (hs : ∀ s ∈ ref :: sites, (south = true ↔ s.1 < 0)) :
    getCamfilterLL P sites speed dir ref width shape dx xmax =
      getCamfilter (sites.map fun s => (P.fwd z south s.2 s.1).1) (sites.map fun s => (P.fwd z south s.2 s.1).2) speed dir
        (P.fwd z south ref.2 ref.1) width shape dx xmax := by
  have key : ∀ s ∈ ref :: sites, latlon2utm1 P s.1 s.2 none = ((P.fwd z south s.2 s.1).1, (P.fwd z south s.2 s.1).2, z) := by
    intro s hs'
    have e : decide (s.1 < 0) = south := by
      have := hs s hs'
      cases south <;> simp_all
    simp only [latlon2utm1, Option.getD_none, hz s hs', e]
  unfold getCamfilterLL
  simp only
  rw [key ref List.mem_cons_self]
  have e1 : (sites.map fun s => latlon2utm1 P s.1 s.2 none) = sites.map fun s => ((P.fwd z south s.2 s.1).1, (P.fwd z south s.2 s.1).2, z) :=
    List.map_congr_left fun s hs' => key s (List.mem_cons_of_mem _ hs')
  rw [e1, List.map_map, List.map_map]
  rfl

/-- Two sites near the reference, all in zone 32 of the northern hemisphere. -/
example : (∀ s ∈ [((48 : ℝ), (9 : ℝ)), (48.1, 9), (48, 9.2)], calcZone s.2 = 32) ∧ ∀ s ∈ [((48 : ℝ), (9 : ℝ)), (48.1, 9), (48, 9.2)], (false = true ↔ s.1 < 0) := by
  have h : ∀ v : ℝ, 6 ≤ v → v < 12 → calcZone v = 32 := by
    intro v h1 h2
    unfold calcZone pyInt
    have e : ⌊(v - (-180)) / 6 + 1⌋ = 32 := by
      rw [Int.floor_eq_iff]
      constructor <;> push_cast <;> linarith
    rw [if_pos (by linarith), e]
    rfl
  constructor
  · intro s hs
    simp only [List.mem_cons, List.not_mem_nil, or_false] at hs
    rcases hs with rfl | rfl | rfl <;> exact h _ (by norm_num) (by norm_num)
  · intro s hs
    simp only [List.mem_cons, List.not_mem_nil, or_false] at hs
    rcases hs with rfl | rfl | rfl <;> norm_num

/-- C150 is violated: a site east of the reference, less than six degrees away but in the next zone, is treated as if it lay west of it. -/
theorem C150_violated (P : Projector) (hP : ZonesAlike P) (lat a b speed : ℝ) (dir : ℝ × ℝ) (width : Option ℝ) (shape : String) (dx xmax : ℝ)
    (hlat : |lat| < 90) (ha : -180 ≤ a) (hab : a < b) (hb6 : b < a + 6) (hb : b < 180) (hz : calcZone b = calcZone a + 1) :
    ∃ e n : ℝ, e < (latlon2utm1 P lat a none).1 ∧ (latlon2utm1 P lat a none).1 < (latlon2utm1 P lat b (some (calcZone a))).1 ∧
      getCamfilterLL P [(lat, b)] speed dir (lat, a) width shape dx xmax =
        getCamfilter [e] [n] speed dir ((latlon2utm1 P lat a none).1, (latlon2utm1 P lat a none).2.1) width shape dx xmax := by
  obtain ⟨za, _, _, a1, a2, a3⟩ := Spatial.C01_zone_is_band P lat a ha (by linarith)
  obtain ⟨zb, _, _, b1, b2, b3⟩ := Spatial.C01_zone_is_band P lat b (by linarith) hb
  have ea : calcZone a = za := by
    have := congrArg (fun r : ℝ × ℝ × ℤ => r.2.2) (Spatial.Out.one.inj (Except.ok.inj a3))
    simpa [latlon2utm1] using this
  have eb : calcZone b = zb := by
    have := congrArg (fun r : ℝ × ℝ × ℤ => r.2.2) (Spatial.Out.one.inj (Except.ok.inj b3))
    simpa [latlon2utm1] using this
  rw [ea, eb] at hz
  subst hz
  push_cast at b1 b2
  refine ⟨(latlon2utm1 P lat b none).1, (latlon2utm1 P lat b none).2.1, ?_, ?_, rfl⟩
  · simp only [latlon2utm1, Option.getD_none, ea, eb]
    have := hP.shift za (decide (lat < 0)) (b - 6) lat
    rw [sub_add_cancel] at this
    rw [this]
    refine hP.east za _ lat (b - 6) a hlat ?_ ?_ (by linarith)
    · rw [abs_le]; constructor <;> linarith
    · rw [abs_le]; constructor <;> linarith
  · simp only [latlon2utm1, Option.getD_none, Option.getD_some, ea]
    refine hP.east za _ lat a b hlat ?_ ?_ hab
    · rw [abs_le]; constructor <;> linarith
    · rw [abs_le]; constructor <;> linarith

/-- A projector with these properties, and two places a tenth of a degree apart at the border of two zones. -/
noncomputable def plateCarree : Projector where
  fwd z _ lon lat := (500000 + 100000 * (lon - (6 * z - 183)), 100000 * lat)
  inv z _ e n := ((e - 500000) / 100000 + (6 * z - 183), n / 100000)

example : ZonesAlike plateCarree ∧ calcZone 12.05 = calcZone 11.95 + 1 := by
  refine ⟨⟨?_, ?_⟩, ?_⟩
  · intro z s lon lat
    simp only [plateCarree]
    push_cast
    refine Prod.ext ?_ rfl
    simp only
    ring
  · intro z s lat lon lon' _ _ _ h
    simp only [plateCarree]
    linarith
  · have e1 : ⌊((12.05 : ℝ) - (-180)) / 6 + 1⌋ = 33 := by
      rw [Int.floor_eq_iff]
      constructor <;> norm_num
    have e2 : ⌊((11.95 : ℝ) - (-180)) / 6 + 1⌋ = 32 := by
      rw [Int.floor_eq_iff]
      constructor <;> norm_num
    unfold calcZone pyInt
    rw [if_pos (by norm_num), if_pos (by norm_num), e1, e2]
    rfl

/-- C150 is violated for the documented kind of reference: a frame ("a subset of positions") is rejected, whatever its rows. -/
theorem C150_violated_frame (es ns : List ℝ) (speed : ℝ) (dir : ℝ × ℝ) (rows : List (ℝ × ℝ)) (width : Option ℝ) (shape : String) (dx xmax : ℝ) :
    Raises (getCamfilterRef es ns speed dir (.frame rows) width shape dx xmax) .valueError := by
  unfold Raises getCamfilterRef vectorsShape
  rw [if_pos (by simp)]

/-- C150: one row as reference is what `getCamfilter` describes. -/
theorem C150_row_partial (es ns : List ℝ) (speed : ℝ) (dir : ℝ × ℝ) (e n : ℝ) (width : Option ℝ) (shape : String) (dx xmax : ℝ) :
    getCamfilterRef es ns speed dir (.row e n) width shape dx xmax = getCamfilter es ns speed dir (e, n) width shape dx xmax := by
  unfold getCamfilterRef vectorsShape
  rw [if_neg (by simp)]

/-- C150: a plant without sites is refused, whatever the reference. -/
theorem C150_no_sites_partial (ns : List ℝ) (speed : ℝ) (dir : ℝ × ℝ) (ref : RefPos) (width : Option ℝ) (shape : String) (dx xmax : ℝ) :
    Raises (getCamfilterRef [] ns speed dir ref width shape dx xmax) .valueError := by
  cases ref <;> simp [Raises, getCamfilterRef, getCamfilter, vectorsShape]

/-! ## C151 -/

/-- C151 (the part that holds): for a Series and a Series as filter the description in `Model/Filters.lean` applies.
Full claim: a frame is filtered column by column. -/
theorem C151_series_partial (dt : ℝ) (x : List ℝ) (filt : List (ℝ × ℂ)) : applyFilterAny dt (.d1 x) (.series filt) = applyFilter dt x filt := by
  unfold applyFilterAny applyFilter
  simp only [Nd.len, Nd.lastDim, Filt.freqs, Nd.lastAxis, mulFilt, List.mem_map, forall_exists_index, and_imp, forall_apply_eq_imp_iff₂]
  split_ifs
  · rfl
  · rfl
  · cases interpTf (fftfreq x.length dt) filt with
    | error e => rfl
    | ok H =>
      simp only [Except.map, Except.bind, Nd.toSeries]
      rw [List.map_zipWith]

/-- C151: fewer than two rows are refused with `IndexError`. -/
theorem C151_short_partial (dt : ℝ) (rows : List (List ℝ)) (filt : Filt) (h : rows.length < 2) :
    Raises (applyFilterAny dt (.d2 rows) filt) .indexError := by
  unfold Raises applyFilterAny
  rw [if_pos (show (Nd.d2 rows).len < 2 from h)]

example : [[(1 : ℝ), 2, 3]].length < 2 := by simp

/-- C151 is violated: a DataFrame as signal never gives a result. -/
theorem C151_violated_signal (dt : ℝ) (rows : List (List ℝ)) (filt : Filt) (out : List ℝ) : applyFilterAny dt (.d2 rows) filt ≠ .ok out := by
  unfold applyFilterAny
  by_cases c1 : (Nd.d2 rows).len < 2
  · rw [if_pos c1]
    exact fun h => by cases h
  rw [if_neg c1]
  simp only
  by_cases c2 : ∃ f ∈ fftfreq (Nd.d2 rows).lastDim dt, ∀ g ∈ filt.freqs, g < f
  · rw [if_pos c2]
    exact fun h => by cases h
  · rw [if_neg c2]
    have : ∀ Y, mulFilt ((Nd.d2 rows).lastAxis fun r => (fft (r.map fun (v : ℝ) => (v : ℂ))).map fun (z : ℂ) => z * 2 / ((Nd.d2 rows).len : ℂ))
        (fftfreq (Nd.d2 rows).lastDim dt) filt = .ok Y → ∃ r, Y = .d2 r := by
      intro Y hY
      cases filt with
      | series l =>
        simp only [mulFilt] at hY
        cases hi : interpTf (fftfreq (Nd.d2 rows).lastDim dt) l with
        | error e => rw [hi] at hY; cases hY
        | ok H => rw [hi] at hY; cases hY; exact ⟨_, rfl⟩
      | frame cols =>
        simp only [mulFilt] at hY
        cases hi : cols.mapM (interpTf (fftfreq (Nd.d2 rows).lastDim dt)) with
        | error e => rw [hi] at hY; cases hY
        | ok H =>
          rw [hi] at hY
          simp only [Except.bind] at hY
          split_ifs at hY
          cases hY
          exact ⟨_, rfl⟩
    intro h
    cases hm : mulFilt ((Nd.d2 rows).lastAxis fun r => (fft (r.map fun (v : ℝ) => (v : ℂ))).map fun (z : ℂ) => z * 2 / ((Nd.d2 rows).len : ℂ))
        (fftfreq (Nd.d2 rows).lastDim dt) filt with
    | error e => rw [hm] at h; cases h
    | ok Y =>
      obtain ⟨r, rfl⟩ := this Y hm
      rw [hm] at h
      cases h

/-- C151 is violated: a DataFrame as filter never gives a result either. -/
theorem C151_violated_filter (dt : ℝ) (x : Nd ℝ) (cols : List (List (ℝ × ℂ))) (out : List ℝ) : applyFilterAny dt x (.frame cols) ≠ .ok out := by
  cases x with
  | d2 rows => exact C151_violated_signal dt rows _ out
  | d1 x =>
    unfold applyFilterAny
    by_cases c1 : (Nd.d1 x).len < 2
    · rw [if_pos c1]
      exact fun h => by cases h
    rw [if_neg c1]
    simp only
    by_cases c2 : ∃ f ∈ fftfreq (Nd.d1 x).lastDim dt, ∀ g ∈ (Filt.frame cols).freqs, g < f
    · rw [if_pos c2]
      exact fun h => by cases h
    · rw [if_neg c2]
      have this : ∀ (X : List ℂ) (fv : List ℝ) Y, mulFilt (.d1 X) fv (.frame cols) = .ok Y → ∃ r, Y = .d2 r := by
        intro X fv Y hY
        simp only [mulFilt] at hY
        cases hi : cols.mapM (interpTf fv) with
        | error e => rw [hi] at hY; cases hY
        | ok H =>
          rw [hi] at hY
          simp only [Except.bind] at hY
          split_ifs at hY
          cases hY
          exact ⟨_, rfl⟩
      intro h
      cases hm : mulFilt ((Nd.d1 x).lastAxis fun r => (fft (r.map fun (v : ℝ) => (v : ℂ))).map fun (z : ℂ) => z * 2 / ((Nd.d1 x).len : ℂ))
          (fftfreq (Nd.d1 x).lastDim dt) (.frame cols) with
      | error e => rw [hm] at h; cases h
      | ok Y =>
        obtain ⟨r, rfl⟩ := this _ _ Y hm
        rw [hm] at h
        cases h

/-! ## C153 -/

/-- C153 is violated: the score reported by `get_timeseries_stats` is the variability score of the clear-sky index times 10000; from
a variability score of 0.018 on the weights made from it are all NaN. -/
theorem C153_violated (kt : List (Option ℝ)) (thr : ℝ) (scales : List ℝ) (v : ℝ) (hv : Stats.scoreRaw kt 1 = some v) (h : 0.018 < v) :
    ∃ vs, (Cloud.tsStats kt thr).2.2.2.2 = some vs ∧ Cloud.vsWeights scales vs = .ok none := by
  refine ⟨v * 1e4, by simp [Cloud.tsStats, hv], ?_⟩
  unfold Cloud.vsWeights
  rw [if_neg (by norm_num at h ⊢; linarith), if_pos (by norm_num at h ⊢; linarith)]

/-- Three samples with two equal ramps. -/
theorem score_two_ramps (c : ℝ) (hc : 0 < c) : Stats.scoreRaw [some (2 * c), some c, some 0] 1 = some (c / 4) := by
  have h1 : |c - 2 * c| = c := by rw [abs_of_neg (by linarith)]; ring
  have h2 : |(0 : ℝ) - c| = c := by rw [abs_of_neg (by linarith)]; ring
  have hd : (Stats.diffs [some (2 * c), some c, some 0] 1).map (Option.map fun (v : ℝ) => |v|) = [none, some c, some c] := by
    simp only [Stats.diffs, Stats.osub, List.length_cons, List.length_nil, List.drop_succ_cons, List.drop_zero, List.zipWith_cons_cons,
      List.zipWith_nil_left, Option.bind_some, Option.map_some]
    simp [h1, abs_of_pos hc]
  have hr : Stats.rankPct [none, some c, some c] c = 3 / 4 := by
    simp [Stats.rankPct]
    norm_num
  unfold Stats.scoreRaw
  simp only [hd, List.map_cons, List.map_nil, Option.map_some, Option.map_none, hr]
  simp [Stats.omax]
  ring

example : ∃ v, Stats.scoreRaw [some (2 * (1 / 2)), some (1 / 2), some 0] 1 = some v ∧ (0.018 : ℝ) < v :=
  ⟨_, score_two_ramps (1 / 2) (by norm_num), by norm_num⟩

/-- C153 (the part that holds): below 0.018 the weights are positive and add up to 1.
Full claim: for every score. -/
theorem C153_small_partial (kt : List (Option ℝ)) (thr : ℝ) (scales : List ℝ) (hne : scales ≠ []) (hs : ∀ s ∈ scales, 0 < s) (v : ℝ)
    (hv : Stats.scoreRaw kt 1 = some v) (h0 : 0 < v) (h : v < 0.018) :
    ∃ vs w, (Cloud.tsStats kt thr).2.2.2.2 = some vs ∧ Cloud.vsWeights scales vs = .ok (some w) ∧ (∀ x ∈ w, 0 < x) ∧ w.sum = 1 := by
  obtain ⟨w, h1, _, h2, h3, _⟩ := CloudRandom.C65_vs_partial scales hne hs (v * 1e4) (by positivity) (by norm_num at h ⊢; linarith)
  exact ⟨v * 1e4, w, by simp [Cloud.tsStats, hv], h1, h2, h3⟩

example : ∃ v, Stats.scoreRaw [some (2 * (1 / 100)), some (1 / 100), some 0] 1 = some v ∧ 0 < v ∧ v < (0.018 : ℝ) :=
  ⟨_, score_two_ramps (1 / 100) (by norm_num), by norm_num, by norm_num⟩

end SST.Props.Args
