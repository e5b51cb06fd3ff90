import Verif.Props.DataIo
import Mathlib.Tactic.Linarith
import Mathlib.Tactic.Ring
import Mathlib.Data.Int.Order.Basic

/-! # Properties of the converters to HDF (C83, C84, C131, C132, C133) -/

namespace SST.DataIO
open SST

/-! ## C83, C132: the HOPE converter -/

theorem exec_append {κ ρ : Type} [DecidableEq κ] [Rearrange κ ρ] (h : HFile κ ρ) (a b : List (Except PyErr (HAct κ ρ))) :
    exec h (a ++ b) = match exec h a with
      | (h', none) => exec h' b
      | (h', some e) => (h', some e) := by
  induction a generalizing h with
  | nil => rfl
  | cons x a ih =>
    cases x with
    | error e => rfl
    | ok x =>
      simp only [List.cons_append, exec]
      cases x.apply h with
      | error e => rfl
      | ok h' => exact ih h'

/-- The tables of a list of parsed files put together. -/
def catRows {κ ρ : Type} (f : Parsed κ ρ → Tbl κ ρ) (ps : List (Parsed κ ρ)) : List ρ := (ps.map fun p : Parsed κ ρ => (f p).rows).flatten

/-- Appending a table with the stored columns. -/
theorem apply_same {κ ρ : Type} [DecidableEq κ] [Rearrange κ ρ] (st : Key → Option (Tbl κ ρ)) (k : Key) (cs : List κ) (rs : List ρ) (t : Tbl κ ρ)
    (hk : st k = some ⟨cs, rs⟩) (hc : t.cols = cs) (h0 : cs ≠ []) :
    HAct.apply (some st) (.append k t) = .ok (some fun q => if q = k then some ⟨cs, rs ++ t.rows⟩ else st q) := by
  simp only [HAct.apply, Option.elim_some, hk, Option.getD_some, hc, h0, or_false, if_true]
  split_ifs with hr
  · rw [hr, List.append_nil]
    congr 2
    funext q
    split_ifs with hq
    · rw [hq, hk]
    · rfl
  · rfl

/-- The loop on a file that already holds the first `i > 0` files. -/
theorem exec_loop {κ ρ : Type} [DecidableEq κ] [Rearrange κ ρ] (parse : Str → Except PyErr (Parsed κ ρ)) (files : List Str) (ps : List (Parsed κ ρ))
    (hp : files.map parse = ps.map .ok) (cd cf : List κ) (hcd : ∀ p ∈ ps, p.data.cols = cd) (hcf : ∀ p ∈ ps, p.flag.cols = cf) (i : ℕ) (hi : 0 < i)
    (st : Key → Option (Tbl κ ρ)) (rd rf : List ρ) (hd : st .data = some ⟨cd, rd⟩) (hf : st .flag = some ⟨cf, rf⟩) (hd0 : cd ≠ []) (hf0 : cf ≠ []) :
    exec (some st) (convertLoop parse i files) =
      (some (fun q => if q = .data then some ⟨cd, rd ++ catRows Parsed.data ps⟩ else if q = .flag then some ⟨cf, rf ++ catRows Parsed.flag ps⟩ else st q), none) := by
  induction files generalizing ps i st rd rf with
  | nil =>
    have : ps = [] := by cases ps with
      | nil => rfl
      | cons p ps => simp at hp
    subst this
    simp only [convertLoop, exec, catRows, List.map_nil, List.flatten_nil, List.append_nil, Prod.mk.injEq, and_true]
    congr 1
    funext q
    split_ifs with h1 h2
    · rw [h1, hd]
    · rw [h2, hf]
    · rfl
  | cons fn files ih =>
    cases ps with
    | nil => simp at hp
    | cons p ps =>
      simp only [List.map_cons, List.cons.injEq] at hp
      simp only [convertLoop, hp.1]
      rw [if_neg (by omega)]
      simp only [List.nil_append, List.cons_append, exec]
      rw [apply_same st .data cd rd p.data hd (hcd p List.mem_cons_self) hd0]
      simp only
      rw [apply_same _ .flag cf rf p.flag (by simpa using hf) (hcf p List.mem_cons_self) hf0]
      simp only
      rw [ih ps hp.2 (fun p hp => hcd p (List.mem_cons_of_mem _ hp)) (fun p hp => hcf p (List.mem_cons_of_mem _ hp)) (i + 1) (by omega) _ (rd ++ p.data.rows) (rf ++ p.flag.rows)
        (by simp) (by simp)]
      simp only [Prod.mk.injEq, and_true]
      congr 1
      funext q
      cases q <;> simp [catRows]

/-- The loop from no file. -/
theorem exec_loop0 {κ ρ : Type} [DecidableEq κ] [Rearrange κ ρ] (parse : Str → Except PyErr (Parsed κ ρ)) (files : List Str) (p : Parsed κ ρ) (ps : List (Parsed κ ρ))
    (hp : files.map parse = (p :: ps).map .ok) (hcd : ∀ x ∈ ps, x.data.cols = p.data.cols) (hcf : ∀ x ∈ ps, x.flag.cols = p.flag.cols)
    (hd : p.data.rows ≠ [] ∧ p.data.cols ≠ []) (hf : p.flag.rows ≠ [] ∧ p.flag.cols ≠ []) :
    exec none (convertLoop parse 0 files) = (some (fun q => match q with
      | .latlon => some p.latlon
      | .data => some ⟨p.data.cols, catRows Parsed.data (p :: ps)⟩
      | .flag => some ⟨p.flag.cols, catRows Parsed.flag (p :: ps)⟩
      | .tilt => none), none) := by
  cases files with
  | nil => simp at hp
  | cons fn files =>
    simp only [List.map_cons, List.cons.injEq] at hp
    simp only [convertLoop, hp.1, if_true]
    have h1 : (Key.data = Key.latlon) = False := by simp
    have h2 : (Key.flag = Key.data) = False := by simp
    have h3 : (Key.flag = Key.latlon) = False := by simp
    simp only [List.cons_append, List.nil_append, exec, HAct.apply, Option.elim_none, Option.elim_some, h1, h2, h3, if_false, hd.1, hd.2, hf.1, hf.2, or_self]
    rw [exec_loop parse files ps hp.2 p.data.cols p.flag.cols hcd hcf 1 (by omega) _ p.data.rows p.flag.rows (by simp) (by simp) hd.2 hf.2]
    simp only [Prod.mk.injEq, and_true]
    congr 1
    funext q
    cases q <;> simp [catRows]

/-- C83 (HOPE): with `overwrite`, the outcome does not depend on what the target file held before: not on an earlier complete run, nor on one
interrupted at any point.  Without the file it does not depend on the flag. -/
theorem C83_overwrite {κ ρ : Type} [DecidableEq κ] [Rearrange κ ρ] (dir : Option (List (Str × Bool))) (hdir : dir ≠ none) (parse : Str → Except PyErr (Parsed κ ρ)) (h h0 : HFile κ ρ) (ov ov' : Bool) (k : ℕ) :
    exec h (datasetToH5 dir parse h true) = exec none (datasetToH5 dir parse none ov) ∧
    exec (exec h0 ((datasetToH5 dir parse h0 ov').take k)).1 (datasetToH5 dir parse (exec h0 ((datasetToH5 dir parse h0 ov').take k)).1 true) =
      exec none (datasetToH5 dir parse none ov) := by
  have key : ∀ h : HFile κ ρ, exec h (datasetToH5 dir parse h true) = exec none (datasetToH5 dir parse none ov) := by
    intro h
    cases dir with
    | none => exact absurd rfl hdir
    | some d =>
      unfold datasetToH5
      cases hg : getfiles (some d) (some ['.', 'n', 'c']) true with
      | error e => simp [getfiles] at hg
      | ok files =>
        cases h with
        | none => simp
        | some st => simp [exec, HAct.apply]
  exact ⟨key h, key _⟩

/-- C83 (HOPE): a complete conversion holds the rows of all `.nc` files, once each, in the sorted order of the file names, and the station table of the
first one; the files must agree on their columns and the first one must have records and stations, and then the conversion succeeds. -/
theorem C83_content {κ ρ : Type} [DecidableEq κ] [Rearrange κ ρ] (dir : Option (List (Str × Bool))) (parse : Str → Except PyErr (Parsed κ ρ)) (h : HFile κ ρ) (files : List Str)
    (hfiles : getfiles dir (some ['.', 'n', 'c']) true = .ok files) (p : Parsed κ ρ) (ps : List (Parsed κ ρ)) (hp : files.map parse = (p :: ps).map .ok)
    (hcd : ∀ x ∈ ps, x.data.cols = p.data.cols) (hcf : ∀ x ∈ ps, x.flag.cols = p.flag.cols)
    (hd : p.data.rows ≠ [] ∧ p.data.cols ≠ []) (hf : p.flag.rows ≠ [] ∧ p.flag.cols ≠ []) :
    ∃ st, exec h (datasetToH5 dir parse h true) = (some st, none) ∧ st .data = some ⟨p.data.cols, catRows Parsed.data (p :: ps)⟩ ∧
      st .flag = some ⟨p.flag.cols, catRows Parsed.flag (p :: ps)⟩ ∧ st .latlon = some p.latlon := by
  have : exec h (datasetToH5 dir parse h true) = exec none (convertLoop parse 0 files) := by
    unfold datasetToH5
    rw [hfiles]
    cases h with
    | none => simp
    | some st => simp [exec, HAct.apply]
  rw [this, exec_loop0 parse files p ps hp hcd hcf hd hf]
  exact ⟨_, rfl, rfl, rfl, rfl⟩

/-- The hypotheses hold in a concrete case: two files listed in the wrong order and one other file. -/
example : getfiles (some [("b.nc".toList, false), ("x.txt".toList, false), ("a.nc".toList, false)]) (some ['.', 'n', 'c']) true = .ok ["a.nc".toList, "b.nc".toList] := by
  have h1 : selected (some ['.', 'n', 'c']) ["b.nc".toList, "x.txt".toList, "a.nc".toList] = ["b.nc".toList, "a.nc".toList] := by decide +kernel
  have h2 : ["b.nc".toList, "a.nc".toList].mergeSort (fun a b => decide (a ≤ b)) = ["a.nc".toList, "b.nc".toList] := by
    have hle : ¬ "b.nc".toList ≤ "a.nc".toList := by decide +kernel
    simp [List.mergeSort, List.MergeSort.Internal.splitInTwo, List.merge] at hle ⊢
    exact hle
  unfold getfiles
  simp only [List.map_cons, List.map_nil]
  rw [h1]
  simpa using h2

/-- C83 (HOPE): without `overwrite` an existing file is refused and left as it is. -/
theorem C83_refuse {κ ρ : Type} [DecidableEq κ] [Rearrange κ ρ] (entries : List (Str × Bool)) (parse : Str → Except PyErr (Parsed κ ρ)) (st : Key → Option (Tbl κ ρ)) :
    exec (some st) (datasetToH5 (some entries) parse (some st) false) = (some st, some .valueError) := by
  unfold datasetToH5
  cases hg : getfiles (some entries) (some ['.', 'n', 'c']) true with
  | error e => simp [getfiles] at hg
  | ok files => simp [exec]

/-- C132 is violated: the old file is removed before the new one is known to be convertible; if the first file cannot be parsed, or there
is none at all, nothing is left. -/
theorem C132_violated_lost {κ ρ : Type} [DecidableEq κ] [Rearrange κ ρ] (dir : Option (List (Str × Bool))) (parse : Str → Except PyErr (Parsed κ ρ)) (st : Key → Option (Tbl κ ρ)) (files : List Str)
    (hfiles : getfiles dir (some ['.', 'n', 'c']) true = .ok files) :
    (files = [] → exec (some st) (datasetToH5 dir parse (some st) true) = (none, none)) ∧
    (∀ fn rest e, files = fn :: rest → parse fn = .error e → exec (some st) (datasetToH5 dir parse (some st) true) = (none, some e)) := by
  unfold datasetToH5
  rw [hfiles]
  constructor
  · rintro rfl
    simp [exec, HAct.apply, convertLoop]
  · rintro fn rest e rfl he
    simp [exec, HAct.apply, convertLoop, he]

/-- C132 (the part that holds): when listing the directory fails, the old file is kept. -/
theorem C132_listing_partial {κ ρ : Type} [DecidableEq κ] [Rearrange κ ρ] (parse : Str → Except PyErr (Parsed κ ρ)) (h : HFile κ ρ) (ov : Bool) :
    exec h (datasetToH5 none parse h ov) = (h, some .osError) := by
  simp [datasetToH5, getfiles, exec]

example : exec (some fun _ => none) (datasetToH5 (some [("readme.txt".toList, false)]) (fun _ => .error .osError) (some fun _ => none) true : List (Except PyErr (HAct ℕ (ℤ × List (Option ℝ))))) =
    (none, none) :=
  (C132_violated_lost (some [("readme.txt".toList, false)]) _ _ [] (by
    have : selected (some ['.', 'n', 'c']) [("readme.txt".toList)] = [] := by decide +kernel
    unfold getfiles
    simp only [List.map_cons, List.map_nil]
    rw [this]
    simp)).1 rfl

/-! ## C83: the NRCAN converter -/

/-- C83 is violated (NRCAN): a second run on the same input appends all rows of both tables once more. -/
theorem C83_violated_duplicates (step : ℤ) (dir : Option (List (Str × Bool))) (read : Str → Except PyErr Raw) (latlon : Except PyErr (Tbl Str Row)) (st : Key → Option (Tbl Str Row))
    (h : exec none (processFiles step dir read latlon) = (some st, none)) (d t : Tbl Str Row) (hd : st .data = some d) (ht : st .tilt = some t) :
    ∃ st', exec (some st) (processFiles step dir read latlon) = (some st', none) ∧
      st' .data = some ⟨d.cols, d.rows ++ d.rows⟩ ∧ st' .tilt = some ⟨t.cols, t.rows ++ t.rows⟩ := by
  unfold processFiles at h ⊢
  cases hg : getfiles dir (some ['.', 'c', 's', 'v']) true with
  | error e => rw [hg] at h; simp [exec] at h
  | ok files =>
    rw [hg] at h
    cases latlon with
    | error e => simp [exec] at h
    | ok ll =>
      simp only at h ⊢
      cases hl : processLoop step read files none with
      | error e => rw [hl] at h; simp [exec] at h
      | ok acc =>
        rw [hl] at h
        cases acc with
        | none => simp [exec, HAct.apply] at h
        | some w =>
          obtain ⟨a, b⟩ := w
          simp only at h ⊢
          by_cases ha : a.tbl.rows = [] ∨ a.tbl.cols = [] <;> by_cases hb : b.tbl.rows = [] ∨ b.tbl.cols = []
          all_goals
            simp only [exec, HAct.apply, ha, hb, if_true, if_false, Option.getD_some, Option.elim_some, Option.elim_none, reduceCtorEq,
              Prod.mk.injEq, Option.some.injEq, and_true] at h
            subst h
          · simp at hd
          · simp at hd
          · simp at ht
          · simp only [reduceCtorEq, if_false, if_true, Option.some.injEq] at hd ht
            subst hd ht
            simp [exec, HAct.apply, ha, hb]

/-- C83 (the part that holds for NRCAN): the run on a fresh target is deterministic in its inputs, and a run interrupted before the first table was
started can be repeated. -/
theorem C83_fresh_partial (step : ℤ) (dir : Option (List (Str × Bool))) (read : Str → Except PyErr Raw) (latlon : Except PyErr (Tbl Str Row)) :
    exec (exec none ((processFiles step dir read latlon).take 1)).1 (processFiles step dir read latlon) = exec none (processFiles step dir read latlon) := by
  unfold processFiles
  cases hg : getfiles dir (some ['.', 'c', 's', 'v']) true with
  | error e => simp [exec]
  | ok files =>
    cases latlon with
    | error e => simp [exec]
    | ok ll =>
      simp only
      cases hl : processLoop step read files none with
      | error e => simp [exec]
      | ok acc =>
        cases acc with
        | none =>
          simp [exec, HAct.apply]
          funext q
          split_ifs <;> rfl
        | some w =>
          obtain ⟨a, b⟩ := w
          have e : (fun q : Key => if q = Key.latlon then some ll else if q = Key.latlon then some ll else none) =
              fun q : Key => if q = Key.latlon then some ll else none := by
            funext q
            split_ifs <;> rfl
          simp [exec, HAct.apply, e]

/-! ## C133 -/

/-- C133: with no sensor file the run ends in `NameError`, after `latlon` has been written to the target. -/
theorem C133_violated_no_sensor (step : ℤ) (dir : Option (List (Str × Bool))) (read : Str → Except PyErr Raw) (ll : Tbl Str Row) (files : List Str)
    (hfiles : getfiles dir (some ['.', 'c', 's', 'v']) true = .ok files) (hno : ∀ f ∈ files, isLatlonFile f = true) :
    ∃ st, exec none (processFiles step dir read (.ok ll)) = (some st, some .nameError) ∧ st .latlon = some ll ∧ st .data = none := by
  have hl : ∀ (fs : List Str) (acc : Option (Wide × Wide)), (∀ f ∈ fs, isLatlonFile f = true) → processLoop step read fs acc = .ok acc := by
    intro fs
    induction fs with
    | nil => intro acc _; rfl
    | cons f fs ih =>
      intro acc h
      simp only [processLoop, h f List.mem_cons_self, if_true]
      exact ih acc fun x hx => h x (List.mem_cons_of_mem _ hx)
  unfold processFiles
  rw [hfiles]
  simp only [hl files none hno, exec, HAct.apply]
  exact ⟨_, rfl, by simp, by simp⟩

/-- C133 (the part that holds): a sensor file that cannot be read, or whose name has no underscore, stops the run before anything is written. -/
theorem C133_untouched_partial (step : ℤ) (dir : Option (List (Str × Bool))) (read : Str → Except PyErr Raw) (ll : Tbl Str Row) (h : HFile Str Row) (files : List Str)
    (hfiles : getfiles dir (some ['.', 'c', 's', 'v']) true = .ok files) (e : PyErr) (he : processLoop step read files none = .error e) :
    exec h (processFiles step dir read (.ok ll)) = (h, some e) := by
  unfold processFiles
  rw [hfiles]
  simp only [he, exec]

theorem splitUnderscore_none {s : Str} (h : '_' ∉ s) : splitUnderscore s = [s] := by
  induction s with
  | nil => rfl
  | cons c cs ih =>
    have hc : c ≠ '_' := fun hc => h (by simp [hc])
    simp only [splitUnderscore, if_neg hc, ih fun hm => h (List.mem_cons_of_mem _ hm)]

theorem splitUnderscore_first {a : Str} (h : '_' ∉ a) (b : Str) : splitUnderscore (a ++ '_' :: b) = a :: splitUnderscore b := by
  induction a with
  | nil => simp [splitUnderscore]
  | cons c cs ih =>
    have hc : c ≠ '_' := fun hc => h (by simp [hc])
    simp only [List.cons_append, splitUnderscore, if_neg hc, ih fun hm => h (List.mem_cons_of_mem _ hm)]

/-- C133: the column of a file `date_site.csv` is `site`; a name without underscore raises `IndexError`. -/
theorem C133_column_name (date site : Str) (h1 : '_' ∉ date) (h2 : '_' ∉ site) (h3 : '.' ∉ date) (h4 : date ≠ []) :
    siteName (date ++ '_' :: site ++ ".csv".toList) = some site ∧ siteName (date ++ ".csv".toList) = none := by
  have e : ".csv".toList = '.' :: "csv".toList := rfl
  have hc : '.' ∉ "csv".toList := by decide
  obtain ⟨c, cs, rfl⟩ := List.exists_cons_of_ne_nil h4
  have hcd : c ≠ '.' := fun hc => h3 (by simp [hc])
  unfold siteName
  rw [e, splitext_dot _ _ hc, splitext_dot _ _ hc, if_pos (by simp [hcd]), if_pos (by simp [hcd])]
  simp only
  rw [splitUnderscore_first h1, splitUnderscore_none h2, splitUnderscore_none h1]
  simp

example : siteName "20140717_VAR01.csv".toList = some "VAR01".toList := by decide +kernel

/-! ## C84 -/

/-- The labels cover the records: multiples of the step, in order, from the one at or before the first record to the one at or before the last. -/
theorem grid_mem {step : ℤ} (hs : 0 < step) {ts : List ℤ} {a b : ℤ} (ha : ts.head? = some a) (hb : ts.getLast? = some b) (hab : a ≤ b) (g : ℤ) :
    g ∈ grid step ts ↔ step ∣ g ∧ a < g + step ∧ g ≤ b := by
  unfold grid
  rw [ha, hb]
  simp only [List.mem_map, List.mem_range]
  have h1 : a / step ≤ b / step := Int.ediv_le_ediv hs hab
  constructor
  · rintro ⟨i, hi, rfl⟩
    refine ⟨Dvd.intro_left _ rfl, ?_, ?_⟩
    · have h2 := Int.lt_ediv_add_one_mul_self a hs
      have : (a / step + (i : ℤ)) * step + step = (a / step + 1) * step + i * step := by ring
      have h3 : 0 ≤ (i : ℤ) * step := by positivity
      linarith
    · have h2 : a / step + (i : ℤ) ≤ b / step := by omega
      calc (a / step + (i : ℤ)) * step ≤ b / step * step := by nlinarith
        _ ≤ b := Int.ediv_mul_le b (by omega)
  · rintro ⟨⟨m, rfl⟩, h2, h3⟩
    have hm1 : m ≤ b / step := by
      rw [Int.le_ediv_iff_mul_le hs]
      linarith
    have hm2 : a / step ≤ m := by
      have : a / step < m + 1 := by
        rw [Int.ediv_lt_iff_lt_mul hs]
        linarith
      omega
    exact ⟨(m - a / step).toNat, by omega, by rw [Int.toNat_of_nonneg (by omega)]; ring⟩

theorem grid_sorted {step : ℤ} (hs : 0 < step) (ts : List ℤ) : (grid step ts).Pairwise (· < ·) := by
  unfold grid
  cases ts.head? with
  | none => simp
  | some a =>
    cases ts.getLast? with
    | none => simp
    | some b =>
      simp only
      rw [List.pairwise_map]
      apply List.pairwise_lt_range.imp
      intro i j h
      have : (i : ℤ) < j := by exact_mod_cast h
      nlinarith

/-- Sorted by time. -/
theorem sort_times (l : List (ℤ × Option ℝ)) : (l.mergeSort (fun a b : ℤ × Option ℝ => decide (a.1 ≤ b.1))).Pairwise fun a b => a.1 ≤ b.1 :=
  (List.pairwise_mergeSort (le := fun a b : ℤ × Option ℝ => decide (a.1 ≤ b.1)) (by intro a b c h1 h2; simp at *; exact h1.trans h2)
    (by intro a b; simp; exact le_total a.1 b.1) l).imp (by intro a b h; simpa using h)

/-- The last record at or before `g` in a list sorted by time. -/
theorem lastAt_spec {s : List (ℤ × Option ℝ)} (hs : s.Pairwise fun a b => a.1 ≤ b.1) (hn : (s.map fun r : ℤ × Option ℝ => r.1).Nodup) (g : ℤ) :
    (∀ t v, (t, v) ∈ s → t ≤ g → (∀ t' v', (t', v') ∈ s → t' ≤ g → t' ≤ t) → lastAt s g = v) ∧ ((∀ t v, (t, v) ∈ s → g < t) → lastAt s g = none) := by
  unfold lastAt
  constructor
  · intro t v hm ht hmax
    have hmf : (t, v) ∈ s.filter fun r : ℤ × Option ℝ => r.1 ≤ g := List.mem_filter.2 ⟨hm, by simpa using ht⟩
    have hne : (s.filter fun r : ℤ × Option ℝ => r.1 ≤ g) ≠ [] := List.ne_nil_of_mem hmf
    rw [List.getLast?_eq_some_getLast hne, Option.elim_some]
    have hlm := List.getLast_mem hne
    have hp := hs.filter (fun r : ℤ × Option ℝ => decide (r.1 ≤ g))
    have hle : t ≤ ((s.filter fun r : ℤ × Option ℝ => r.1 ≤ g).getLast hne).1 := by
      obtain ⟨i, hi, he⟩ := List.getElem_of_mem hmf
      rw [List.getLast_eq_getElem]
      have e1 : t = ((s.filter fun r : ℤ × Option ℝ => r.1 ≤ g)[i]).1 := by rw [he]
      rw [e1]
      rcases Nat.lt_or_ge i ((s.filter fun r : ℤ × Option ℝ => r.1 ≤ g).length - 1) with h | h
      · exact (List.pairwise_iff_getElem.1 hp) i _ hi (by omega) h
      · have : i = (s.filter fun r : ℤ × Option ℝ => r.1 ≤ g).length - 1 := by omega
        simp only [this]
        exact le_rfl
    set q := (s.filter fun r : ℤ × Option ℝ => r.1 ≤ g).getLast hne with hq
    have hqs := (List.mem_filter.1 hlm).1
    have hqg : q.1 ≤ g := by simpa using (List.mem_filter.1 hlm).2
    have heq : q.1 = t := le_antisymm (hmax q.1 q.2 hqs hqg) hle
    have hinj := List.inj_on_of_nodup_map hn hqs hm heq
    rw [hinj]
  · intro h
    have : (s.filter fun r : ℤ × Option ℝ => r.1 ≤ g) = [] := by
      rw [List.filter_eq_nil_iff]
      intro r hr
      have := h r.1 r.2 hr
      simpa using this
    rw [this]
    rfl

/-- The records are exactly one step apart (three or more of them), so pandas relabels them. -/
def EvenlySpaced (step : ℤ) (l : List (ℤ × Option ℝ)) : Prop :=
  3 ≤ l.length ∧ ((l.mergeSort (fun a b : ℤ × Option ℝ => decide (a.1 ≤ b.1))).map fun r : ℤ × Option ℝ => r.1).IsChain fun a b => b = a + step

/-- C84 (the part that holds): unless the records already are exactly one step apart, every label holds the value of the latest record at or
before it (NaN if that record is NaN, or if there is none), and the labels are the multiples of the step around the records.
Missing: records one step apart but not on the labels (`C84_violated_relabelled`). -/
theorem C84_causal_partial (step : ℤ) (hs : 0 < step) (l : List (ℤ × Option ℝ)) (hnodup : (l.map fun r : ℤ × Option ℝ => r.1).Nodup) (hev : ¬ EvenlySpaced step l) (hne : l ≠ []) :
    ∃ out, resampleFfill step l = .ok out ∧ (out.map fun r : ℤ × Option ℝ => r.1).Pairwise (· < ·) ∧
      (∀ g, g ∈ out.map (fun r : ℤ × Option ℝ => r.1) ↔ step ∣ g ∧ (∃ r ∈ l, r.1 < g + step) ∧ ∃ r ∈ l, g ≤ r.1) ∧
      ∀ g v, (g, v) ∈ out → (∀ t w, (t, w) ∈ l → t ≤ g → (∀ t' w', (t', w') ∈ l → t' ≤ g → t' ≤ t) → v = w) ∧ ((∀ t w, (t, w) ∈ l → g < t) → v = none) := by
  set s := l.mergeSort (fun a b : ℤ × Option ℝ => decide (a.1 ≤ b.1)) with hsdef
  have hperm : s.Perm l := List.mergeSort_perm _ _
  have hsort := sort_times l
  rw [← hsdef] at hsort
  have hmem : ∀ r, r ∈ s ↔ r ∈ l := fun r => hperm.mem_iff
  have hn' : (s.map fun r : ℤ × Option ℝ => r.1).Nodup := (hperm.map _).nodup_iff.2 hnodup
  have hsne : s ≠ [] := by
    intro h
    rw [h] at hperm
    exact hne hperm.nil_eq.symm
  have htne : (s.map fun r : ℤ × Option ℝ => r.1) ≠ [] := by simpa using hsne
  have hhead : (s.map fun r : ℤ × Option ℝ => r.1).head? = some ((s.head hsne).1) := by
    rw [List.head?_map, List.head?_eq_some_head hsne]; rfl
  have hlast : (s.map fun r : ℤ × Option ℝ => r.1).getLast? = some ((s.getLast hsne).1) := by
    rw [List.getLast?_map, List.getLast?_eq_some_getLast hsne]; rfl
  have hmin : ∀ r ∈ s, (s.head hsne).1 ≤ r.1 := by
    intro r hr
    obtain ⟨i, hi, rfl⟩ := List.getElem_of_mem hr
    rw [List.head_eq_getElem]
    rcases Nat.eq_zero_or_pos i with h | h
    · simp only [h]; exact le_rfl
    · exact (List.pairwise_iff_getElem.1 hsort) 0 i _ hi h
  have hmax : ∀ r ∈ s, r.1 ≤ (s.getLast hsne).1 := by
    intro r hr
    obtain ⟨i, hi, rfl⟩ := List.getElem_of_mem hr
    rw [List.getLast_eq_getElem]
    rcases Nat.lt_or_ge i (s.length - 1) with h | h
    · exact (List.pairwise_iff_getElem.1 hsort) i _ hi (by omega) h
    · have : i = s.length - 1 := by omega
      simp only [this]; exact le_rfl
  have hok : resampleFfill step l = .ok ((grid step (s.map fun r : ℤ × Option ℝ => r.1)).map fun t : ℤ => (t, lastAt s t)) := by
    unfold resampleFfill
    simp only
    rw [← hsdef, if_neg, if_pos hn']
    rintro ⟨h1, h2, _⟩
    apply hev
    refine ⟨?_, h2⟩
    rw [List.length_map, hperm.length_eq] at h1
    exact h1
  have hfst : ((grid step (s.map fun r : ℤ × Option ℝ => r.1)).map fun t : ℤ => (t, lastAt s t)).map (fun r : ℤ × Option ℝ => r.1) = grid step (s.map fun r : ℤ × Option ℝ => r.1) := by
    rw [List.map_map]
    exact List.map_id' _
  refine ⟨_, hok, ?_, ?_, ?_⟩
  · rw [hfst]
    exact grid_sorted hs _
  · intro g
    rw [hfst, grid_mem hs hhead hlast (hmin _ (List.getLast_mem hsne))]
    constructor
    · rintro ⟨h1, h2, h3⟩
      exact ⟨h1, ⟨_, (hmem _).1 (List.head_mem hsne), h2⟩, ⟨_, (hmem _).1 (List.getLast_mem hsne), h3⟩⟩
    · rintro ⟨h1, ⟨r, hr, h2⟩, ⟨r', hr', h3⟩⟩
      exact ⟨h1, lt_of_le_of_lt (hmin r ((hmem r).2 hr)) h2, h3.trans (hmax r' ((hmem r').2 hr'))⟩
  · intro g v hgv
    obtain ⟨t, _, ht⟩ := List.mem_map.1 hgv
    simp only [Prod.mk.injEq] at ht
    obtain ⟨rfl, rfl⟩ := ht
    obtain ⟨h1, h2⟩ := lastAt_spec hsort hn' t
    refine ⟨fun t' w hm hle hmx => h1 t' w ((hmem _).2 hm) hle fun t'' w'' hm'' hle'' => hmx t'' w'' ((hmem _).1 hm'') hle'',
      fun h => h2 fun t' w hm => h t' w ((hmem _).1 hm)⟩

/-- C84 is violated: when the records are exactly one step apart but not on the labels, every value is moved to an earlier label, before it was
measured. -/
theorem C84_violated_relabelled (step : ℤ) (hs : 0 < step) (off : ℤ) (h0 : 0 < off) (h1 : off < step) (n : ℕ) (hn : 3 ≤ n) (a : ℤ) (v : ℕ → Option ℝ) :
    resampleFfill step ((List.range n).map fun i : ℕ => ((a + i) * step + off, v i)) = .ok ((List.range n).map fun i : ℕ => ((a + i) * step, v i)) := by
  set l := (List.range n).map fun i : ℕ => ((a + (i : ℤ)) * step + off, v i) with hl
  have hsorted : l.mergeSort (fun a b : ℤ × Option ℝ => decide (a.1 ≤ b.1)) = l := by
    apply List.mergeSort_of_pairwise
    rw [hl, List.pairwise_map]
    apply List.pairwise_lt_range.imp
    intro i j h
    have : (i : ℤ) < j := by exact_mod_cast h
    simp only [decide_eq_true_eq]
    nlinarith
  have hts : l.map (fun r : ℤ × Option ℝ => r.1) = (List.range n).map fun i : ℕ => (a + (i : ℤ)) * step + off := by
    rw [hl, List.map_map]; rfl
  have hdiv : ∀ m : ℤ, (m * step + off) / step = m := by
    intro m
    rw [Int.add_comm, Int.add_mul_ediv_right _ _ (by omega), Int.ediv_eq_zero_of_lt h0.le h1, zero_add]
  have hgrid : grid step (l.map fun r : ℤ × Option ℝ => r.1) = (List.range n).map fun i : ℕ => (a + (i : ℤ)) * step := by
    rw [hts]
    unfold grid
    obtain ⟨m, rfl⟩ : ∃ m, n = m + 1 := ⟨n - 1, by omega⟩
    have e1 : ((List.range (m + 1)).map fun i : ℕ => (a + (i : ℤ)) * step + off).head? = some (a * step + off) := by
      rw [List.range_succ_eq_map]; simp
    have e2 : ((List.range (m + 1)).map fun i : ℕ => (a + (i : ℤ)) * step + off).getLast? = some ((a + m) * step + off) := by
      rw [List.range_succ]; simp
    rw [e1, e2]
    simp only [hdiv]
    rw [show (a + (m : ℤ) - a).toNat + 1 = m + 1 by omega]
  unfold resampleFfill
  simp only [hsorted]
  rw [if_pos]
  · congr 1
    rw [hgrid, hl]
    apply List.ext_getElem (by simp)
    intro i h1 h2
    simp
  · refine ⟨by rw [hts]; simpa using hn, ?_, by rw [hgrid, hts]; simp⟩
    rw [hts, List.isChain_iff_getElem]
    intro i hi
    simp only [List.getElem_map, List.getElem_range]
    push_cast
    ring

/-- C84 (the part that holds for evenly spaced records): on the labels, nothing is lost or moved. -/
theorem C84_on_grid_partial (step : ℤ) (hs : 0 < step) (n : ℕ) (hn : 3 ≤ n) (a : ℤ) (v : ℕ → Option ℝ) :
    resampleFfill step ((List.range n).map fun i : ℕ => ((a + i) * step, v i)) = .ok ((List.range n).map fun i : ℕ => ((a + i) * step, v i)) := by
  set l := (List.range n).map fun i : ℕ => ((a + (i : ℤ)) * step, v i) with hl
  have hsorted : l.mergeSort (fun a b : ℤ × Option ℝ => decide (a.1 ≤ b.1)) = l := by
    apply List.mergeSort_of_pairwise
    rw [hl, List.pairwise_map]
    apply List.pairwise_lt_range.imp
    intro i j h
    have : (i : ℤ) < j := by exact_mod_cast h
    simp only [decide_eq_true_eq]
    nlinarith
  have hts : l.map (fun r : ℤ × Option ℝ => r.1) = (List.range n).map fun i : ℕ => (a + (i : ℤ)) * step := by
    rw [hl, List.map_map]; rfl
  have hdiv : ∀ m : ℤ, (m * step) / step = m := fun m => Int.mul_ediv_cancel m (by omega)
  have hgrid : grid step (l.map fun r : ℤ × Option ℝ => r.1) = (List.range n).map fun i : ℕ => (a + (i : ℤ)) * step := by
    rw [hts]
    unfold grid
    obtain ⟨m, rfl⟩ : ∃ m, n = m + 1 := ⟨n - 1, by omega⟩
    have e1 : ((List.range (m + 1)).map fun i : ℕ => (a + (i : ℤ)) * step).head? = some (a * step) := by
      rw [List.range_succ_eq_map]; simp
    have e2 : ((List.range (m + 1)).map fun i : ℕ => (a + (i : ℤ)) * step).getLast? = some ((a + m) * step) := by
      rw [List.range_succ]; simp
    rw [e1, e2]
    simp only [hdiv]
    rw [show (a + (m : ℤ) - a).toNat + 1 = m + 1 by omega]
  unfold resampleFfill
  simp only [hsorted]
  rw [if_pos]
  · congr 1
    rw [hgrid, hl]
    apply List.ext_getElem (by simp)
    intro i h1 h2
    simp
  · refine ⟨by rw [hts]; simpa using hn, ?_, by rw [hgrid, hts]⟩
    rw [hts, List.isChain_iff_getElem]
    intro i hi
    simp only [List.getElem_map, List.getElem_range]
    push_cast
    ring

example : ∃ out, resampleFfill 10 [(3, some 1), (25, some 2)] = .ok out ∧ (out.map fun r : ℤ × Option ℝ => r.1).Pairwise (· < ·) := by
  obtain ⟨out, h1, h2, _⟩ := C84_causal_partial 10 (by norm_num) [(3, some 1), (25, some 2)] (by simp) (by rintro ⟨h, _⟩; simp at h) (by simp)
  exact ⟨out, h1, h2⟩

/-! ## C131 -/

theorem lookup_mem {s : List (ℤ × Option ℝ)} (hs : (s.map fun r : ℤ × Option ℝ => r.1).Nodup) {t : ℤ} {v : Option ℝ} (h : (t, v) ∈ s) : lookup s t = v := by
  unfold lookup
  cases hf : s.find? fun r : ℤ × Option ℝ => r.1 = t with
  | none =>
    rw [List.find?_eq_none] at hf
    have := hf (t, v) h
    simp at this
  | some r =>
    have h1 := List.mem_of_find?_eq_some hf
    have h2 : r.1 = t := by simpa using List.find?_some hf
    have := List.inj_on_of_nodup_map hs h1 h h2
    simp [this]

theorem lookup_absent {s : List (ℤ × Option ℝ)} {t : ℤ} (h : t ∉ s.map fun r : ℤ × Option ℝ => r.1) : lookup s t = none := by
  unfold lookup
  have : (s.find? fun r : ℤ × Option ℝ => r.1 = t) = none := by
    rw [List.find?_eq_none]
    intro r hr hrt
    exact h (List.mem_map.2 ⟨r, hr, by simpa using hrt⟩)
  rw [this]
  rfl

theorem resample_labels {step : ℤ} (hs : 0 < step) {l s : List (ℤ × Option ℝ)} (h : resampleFfill step l = .ok s) :
    (s.map fun r : ℤ × Option ℝ => r.1).Nodup := by
  unfold resampleFfill at h
  simp only at h
  split_ifs at h with h1 h2
  · injection h with h
    rw [← h]
    have := h1.2.2
    rw [show (List.zipWith (fun (t : ℤ) (r : ℤ × Option ℝ) => (t, r.2)) (grid step ((l.mergeSort fun a b : ℤ × Option ℝ => decide (a.1 ≤ b.1)).map fun r : ℤ × Option ℝ => r.1))
        (l.mergeSort fun a b : ℤ × Option ℝ => decide (a.1 ≤ b.1))).map (fun r : ℤ × Option ℝ => r.1) =
        grid step ((l.mergeSort fun a b : ℤ × Option ℝ => decide (a.1 ≤ b.1)).map fun r : ℤ × Option ℝ => r.1) from ?_]
    · exact (grid_sorted hs _).imp fun h => ne_of_lt h
    · rw [List.map_zipWith]
      refine List.ext_getElem (by simp at this ⊢; omega) fun i _ _ => by simp
  · injection h with h
    rw [← h, List.map_map]
    simp only [Function.comp_def, List.map_id']
    exact (grid_sorted hs _).imp fun h => ne_of_lt h

/-- The columns of the sensors `l` at the labels `idx`. -/
def sensorCols (nm : Str → Str) (series : Str → List (ℤ × Option ℝ)) (idx : List ℤ) (l : List Str) : List (Str × List (Option ℝ)) :=
  l.map fun f => (nm f, idx.map (lookup (series f)))

theorem addCol_sensor {nm : Str → Str} {series : Str → List (ℤ × Option ℝ)} {idx : List ℤ} {l : List Str} (hl : ∀ f ∈ l, nm f ≠ ['t', 'm', 'p']) (f : Str) :
    addCol (some ⟨idx, sensorCols nm series idx l⟩) (nm f) (series f) = ⟨idx, sensorCols nm series idx (l ++ [f])⟩ := by
  unfold addCol
  simp only
  rw [if_neg]
  · simp [sensorCols]
  · intro h
    simp only [sensorCols, List.map_map, List.mem_map, Function.comp_def] at h
    obtain ⟨f, hf, h⟩ := h
    exact hl f hf h

theorem loop_sensors {step : ℤ} {read : Str → Except PyErr Raw} {raw : Str → Raw} {nm : Str → Str} {ghi gti : Str → List (ℤ × Option ℝ)}
    {idx idx' : List ℤ} (files done : List Str) (hd : ∀ f ∈ done, nm f ≠ ['t', 'm', 'p'])
    (hf : ∀ f ∈ files, isLatlonFile f = false → read f = .ok (raw f) ∧ siteName f = some (nm f) ∧ nm f ≠ ['t', 'm', 'p'] ∧
      resampleFfill step ((raw f).map fun r : ℤ × Option ℝ × Option ℝ => (r.1, r.2.1)) = .ok (ghi f) ∧
      resampleFfill step ((raw f).map fun r : ℤ × Option ℝ × Option ℝ => (r.1, r.2.2)) = .ok (gti f)) :
    processLoop step read files (some (⟨idx, sensorCols nm ghi idx done⟩, ⟨idx', sensorCols nm gti idx' done⟩)) =
      .ok (some (⟨idx, sensorCols nm ghi idx (done ++ files.filter fun f => !isLatlonFile f)⟩,
        ⟨idx', sensorCols nm gti idx' (done ++ files.filter fun f => !isLatlonFile f)⟩)) := by
  induction files generalizing done with
  | nil => simp [processLoop]
  | cons f files ih =>
    rw [processLoop]
    by_cases hl : isLatlonFile f = true
    · rw [if_pos hl, List.filter_cons_of_neg (by simp [hl])]
      exact ih done hd fun g hg => hf g (List.mem_cons_of_mem _ hg)
    · have hl' : isLatlonFile f = false := by simpa using hl
      obtain ⟨h1, h2, h3, h4, h5⟩ := hf f List.mem_cons_self hl'
      rw [if_neg hl, h1]
      simp only [h2, h4, h5, Option.map_some]
      rw [addCol_sensor hd, addCol_sensor hd, ih (done ++ [f]) _ fun g hg => hf g (List.mem_cons_of_mem _ hg), List.filter_cons_of_pos (by simp [hl'])]
      · simp
      · intro g hg
        rcases List.mem_append.1 hg with h | h
        · exact hd g h
        · rw [List.mem_singleton.1 h]
          exact h3

theorem sensor_tbl (nm : Str → Str) (series : Str → List (ℤ × Option ℝ)) (idx : List ℤ) (l : List Str) :
    (Wide.mk idx (sensorCols nm series idx l)).tbl = ⟨l.map nm, idx.map fun t => (t, l.map fun f => lookup (series f) t)⟩ := by
  unfold Wide.tbl
  simp only [Tbl.mk.injEq]
  constructor
  · simp [sensorCols]
  · refine List.ext_getElem (by simp) fun i h1 h2 => ?_
    have hi : i < idx.length := by simpa using h2
    simp only [List.getElem_map, List.getElem_range, sensorCols, List.map_map, Function.comp_def]
    rw [List.getD_eq_getElem _ _ hi]
    congr 1
    refine List.map_congr_left fun f _ => ?_
    rw [List.getD_eq_getElem _ _ (by simpa using hi)]
    simp

/-- C131 (the part that holds): when all sensor files are read, named and resampled, and none is named `tmp`, the conversion writes the
locations, then under `data` one column per sensor, in the order of the files, and one row per label of the first sensor, with each sensor's own
`G1` value at that label (NaN if it has none), and under `data_tilt` the same for `G2`.
Missing: the samples of the sensors at other labels (`C131_violated_outside`), and sensors named `tmp` (`C131_violated_tmp`). -/
theorem C131_frame_partial (step : ℤ) (hs : 0 < step) (dir : Option (List (Str × Bool))) (read : Str → Except PyErr Raw) (ll : Tbl Str Row) (files : List Str)
    (hfiles : getfiles dir (some ['.', 'c', 's', 'v']) true = .ok files) (raw : Str → Raw) (nm : Str → Str) (ghi gti : Str → List (ℤ × Option ℝ))
    (hf : ∀ f ∈ files, isLatlonFile f = false → read f = .ok (raw f) ∧ siteName f = some (nm f) ∧ nm f ≠ "tmp".toList ∧
      resampleFfill step ((raw f).map fun r : ℤ × Option ℝ × Option ℝ => (r.1, r.2.1)) = .ok (ghi f) ∧
      resampleFfill step ((raw f).map fun r : ℤ × Option ℝ × Option ℝ => (r.1, r.2.2)) = .ok (gti f))
    (first : Str) (others : List Str) (hfirst : (files.filter fun f => !isLatlonFile f) = first :: others) :
    ∃ vG vT : Str → ℤ → Option ℝ,
      (∀ f ∈ first :: others, (∀ t v, (t, v) ∈ ghi f → vG f t = v) ∧ (∀ t, t ∉ (ghi f).map (fun r : ℤ × Option ℝ => r.1) → vG f t = none) ∧
        (∀ t v, (t, v) ∈ gti f → vT f t = v) ∧ ∀ t, t ∉ (gti f).map (fun r : ℤ × Option ℝ => r.1) → vT f t = none) ∧
      processFiles step dir read (.ok ll) = [.ok (.put .latlon ll),
        .ok (.append .data ⟨(first :: others).map nm, (ghi first).map fun r : ℤ × Option ℝ => (r.1, (first :: others).map fun f => vG f r.1)⟩),
        .ok (.append .tilt ⟨(first :: others).map nm, (gti first).map fun r : ℤ × Option ℝ => (r.1, (first :: others).map fun f => vT f r.1)⟩)] := by
  have hsens : ∀ f ∈ first :: others, f ∈ files ∧ isLatlonFile f = false := by
    intro f h
    rw [← hfirst] at h
    simpa using h
  have htmp : "tmp".toList = ['t', 'm', 'p'] := by decide +kernel
  refine ⟨fun f => lookup (ghi f), fun f => lookup (gti f), ?_, ?_⟩
  · intro f h
    obtain ⟨h1, h2⟩ := hsens f h
    obtain ⟨_, _, _, h4, h5⟩ := hf f h1 h2
    exact ⟨fun t v => lookup_mem (resample_labels hs h4), fun t => lookup_absent, fun t v => lookup_mem (resample_labels hs h5), fun t => lookup_absent⟩
  · have key : ∀ l : List Str, (∀ f ∈ l, isLatlonFile f = false → read f = .ok (raw f) ∧ siteName f = some (nm f) ∧ nm f ≠ ['t', 'm', 'p'] ∧
        resampleFfill step ((raw f).map fun r : ℤ × Option ℝ × Option ℝ => (r.1, r.2.1)) = .ok (ghi f) ∧
        resampleFfill step ((raw f).map fun r : ℤ × Option ℝ × Option ℝ => (r.1, r.2.2)) = .ok (gti f)) →
        (l.filter fun f => !isLatlonFile f) = first :: others →
        processLoop step read l none = .ok (some (⟨(ghi first).map fun r : ℤ × Option ℝ => r.1, sensorCols nm ghi ((ghi first).map fun r : ℤ × Option ℝ => r.1) (first :: others)⟩,
          ⟨(gti first).map fun r : ℤ × Option ℝ => r.1, sensorCols nm gti ((gti first).map fun r : ℤ × Option ℝ => r.1) (first :: others)⟩)) := by
      intro l
      induction l with
      | nil => intro _ h; simp at h
      | cons f l ih =>
        intro hf h
        rw [processLoop]
        by_cases hl : isLatlonFile f = true
        · rw [if_pos hl]
          rw [List.filter_cons_of_neg (by simp [hl])] at h
          exact ih (fun g hg => hf g (List.mem_cons_of_mem _ hg)) h
        · have hl' : isLatlonFile f = false := by simpa using hl
          rw [List.filter_cons_of_pos (by simp [hl'])] at h
          obtain ⟨e1, e2⟩ := List.cons.inj h
          obtain ⟨h1, h2, h3, h4, h5⟩ := hf f List.mem_cons_self hl'
          rw [if_neg hl, h1]
          simp only [h2, h4, h5, Option.map_none]
          have hone : ∀ s : Str → List (ℤ × Option ℝ), ((s f).map fun r : ℤ × Option ℝ => r.1).Nodup → addCol none (nm f) (s f) =
              ⟨(s f).map fun r : ℤ × Option ℝ => r.1, sensorCols nm s ((s f).map fun r : ℤ × Option ℝ => r.1) [f]⟩ := by
            intro s hnd
            unfold addCol sensorCols
            simp only [List.map_cons, List.map_nil, List.map_map, Function.comp_def]
            congr 3
            exact List.map_congr_left fun r hr => (lookup_mem hnd hr).symm
          rw [hone ghi (resample_labels hs h4), hone gti (resample_labels hs h5),
            loop_sensors l [f] (by intro g hg; rw [List.mem_singleton.1 hg]; exact h3) fun g hg => hf g (List.mem_cons_of_mem _ hg), e2, e1]
          rfl
    unfold processFiles
    rw [hfiles]
    simp only [key files (by rw [← htmp]; exact hf) hfirst, sensor_tbl, List.map_map, Function.comp_def]

/-- C131 is violated for a sensor named `tmp`: the column of the next sensor takes its place, and its samples are not in the frame. -/
theorem C131_violated_tmp (step : ℤ) (read : Str → Except PyErr Raw) (f g : Str) (hf : isLatlonFile f = false) (hg : isLatlonFile g = false)
    (rf rg : Raw) (hrf : read f = .ok rf) (hrg : read g = .ok rg) (hnf : siteName f = some "tmp".toList) (ng : Str) (hng : siteName g = some ng)
    (sf tf sg tg : List (ℤ × Option ℝ)) (h1 : resampleFfill step (rf.map fun r : ℤ × Option ℝ × Option ℝ => (r.1, r.2.1)) = .ok sf)
    (h2 : resampleFfill step (rf.map fun r : ℤ × Option ℝ × Option ℝ => (r.1, r.2.2)) = .ok tf)
    (h3 : resampleFfill step (rg.map fun r : ℤ × Option ℝ × Option ℝ => (r.1, r.2.1)) = .ok sg)
    (h4 : resampleFfill step (rg.map fun r : ℤ × Option ℝ × Option ℝ => (r.1, r.2.2)) = .ok tg) :
    ∃ out out', processLoop step read [f, g] none = .ok (some (out, out')) ∧ out.cols.map (fun c : Str × List (Option ℝ) => c.1) = [ng] ∧
      out'.cols.map (fun c : Str × List (Option ℝ) => c.1) = [ng] := by
  have htmp : "tmp".toList = ['t', 'm', 'p'] := by decide +kernel
  rw [htmp] at hnf
  refine ⟨addCol (some (addCol none ['t', 'm', 'p'] sf)) ng sg, addCol (some (addCol none ['t', 'm', 'p'] tf)) ng tg, ?_, ?_, ?_⟩
  · simp [processLoop, hf, hg, hrf, hrg, hnf, hng, h1, h2, h3, h4]
  · simp [addCol]
  · simp [addCol]

/-- C131 is violated: whatever later sensors hold, the saved labels are those of the first sensor, so samples at other times are dropped. -/
theorem C131_violated_outside (step : ℤ) (read : Str → Except PyErr Raw) (files : List Str) (w w' out out' : Wide)
    (h : processLoop step read files (some (w, w')) = .ok (some (out, out'))) : out.index = w.index ∧ out'.index = w'.index := by
  induction files generalizing w w' with
  | nil =>
    simp only [processLoop, Except.ok.injEq, Option.some.injEq, Prod.mk.injEq] at h
    rw [h.1, h.2]; exact ⟨rfl, rfl⟩
  | cons f files ih =>
    simp only [processLoop] at h
    split_ifs at h with hf
    · exact ih w w' h
    · cases hr : read f with
      | error e => rw [hr] at h; cases h
      | ok raw =>
        rw [hr] at h
        cases hn : siteName f with
        | none => rw [hn] at h; cases h
        | some col =>
          rw [hn] at h
          simp only at h
          cases h1 : resampleFfill step (raw.map fun r : ℤ × Option ℝ × Option ℝ => (r.1, r.2.1)) with
          | error e => rw [h1] at h; cases h
          | ok ghi =>
            cases h2 : resampleFfill step (raw.map fun r : ℤ × Option ℝ × Option ℝ => (r.1, r.2.2)) with
            | error e => rw [h1, h2] at h; cases h
            | ok gti =>
              rw [h1, h2] at h
              exact ih (addCol (some w) col ghi) (addCol (some w') col gti) h

theorem resample_one (v : Option ℝ) : resampleFfill 10 [(0, v)] = .ok [(0, v)] := by
  have hg : grid 10 [0] = [0] := by decide
  unfold resampleFfill
  simp [lastAt, hg]

/-- Two sensors, each with one record at time 0, read from `a_A.csv` and `a_B.csv`. -/
example : ∃ vG vT : Str → ℤ → Option ℝ, vG "a_B.csv".toList 0 = some 1 ∧ vT "a_B.csv".toList 0 = some 2 ∧
    processFiles 10 (some [("a_A.csv".toList, false), ("a_B.csv".toList, false)]) (fun _ => .ok [(0, some 1, some 2)]) (.ok ⟨[], []⟩) =
      [.ok (.put .latlon ⟨[], []⟩), .ok (.append .data ⟨["A".toList, "B".toList], [(0, [vG "a_A.csv".toList 0, vG "a_B.csv".toList 0])]⟩),
        .ok (.append .tilt ⟨["A".toList, "B".toList], [(0, [vT "a_A.csv".toList 0, vT "a_B.csv".toList 0])]⟩)] := by
  have hfiles : getfiles (some [("a_A.csv".toList, false), ("a_B.csv".toList, false)]) (some ['.', 'c', 's', 'v']) true = .ok ["a_A.csv".toList, "a_B.csv".toList] := by
    unfold getfiles
    simp only [if_true]
    rw [show selected (some ['.', 'c', 's', 'v']) ([("a_A.csv".toList, false), ("a_B.csv".toList, false)].map fun e : Str × Bool => e.1) =
      ["a_A.csv".toList, "a_B.csv".toList] by decide +kernel, List.mergeSort_of_pairwise]
    have : "a_A.csv".toList ≤ "a_B.csv".toList := by decide +kernel
    simpa using this
  have nA : siteName "a_A.csv".toList = some "A".toList := by decide +kernel
  have nB : siteName "a_B.csv".toList = some "B".toList := by decide +kernel
  obtain ⟨vG, vT, h1, h2⟩ := C131_frame_partial 10 (by norm_num) _ (fun _ => .ok [(0, some 1, some 2)]) ⟨[], []⟩ _ hfiles (fun _ => [(0, some 1, some 2)])
    (fun f => (siteName f).getD []) (fun _ => [(0, some 1)]) (fun _ => [(0, some 2)])
    (by
      intro f hf _
      simp only [List.mem_cons, List.not_mem_nil, or_false] at hf
      rcases hf with rfl | rfl
      · exact ⟨rfl, by rw [nA]; rfl, by rw [nA]; decide +kernel, resample_one _, resample_one _⟩
      · exact ⟨rfl, by rw [nB]; rfl, by rw [nB]; decide +kernel, resample_one _, resample_one _⟩)
    "a_A.csv".toList ["a_B.csv".toList] (by decide +kernel)
  refine ⟨vG, vT, (h1 _ (by simp)).1 0 (some 1) (by simp), (h1 _ (by simp)).2.2.1 0 (some 2) (by simp), ?_⟩
  rw [h2]
  simp only [List.map_cons, List.map_nil, nA, nB, Option.getD_some]

end SST.DataIO
