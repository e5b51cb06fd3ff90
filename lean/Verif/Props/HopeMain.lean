import Verif.Proofs.HopeMain

/-! # Properties of the HOPE command line program (C142 to C146) -/

namespace SST.HopeMain
open SST SST.DataIO

/-- The quality-controlled file holds exactly the three tables derived from the source file as it is on disk. -/
def QcWritten (a : Args) (q : Str) (w' : World) : Prop :=
  ∃ st data flag latlon out, w'.h5 (srcName a) = some st ∧ st .data = some data ∧ st .flag = some flag ∧ st .latlon = some latlon ∧
    QcOf q data flag out ∧ w'.h5 (qcName a q) = some (fileOf out flag latlon)

theorem Wrote.written {a : Args} {q : Str} {w : World} {r : World × Option PyErr} (h : Wrote a q w r) : r.2 = none ∧ QcWritten a q r.1 := by
  obtain ⟨h0, st, data, flag, latlon, out, h1, h2, h3, h4, h5, h6, _⟩ := h
  refine ⟨h0, st, data, flag, latlon, out, ?_, h2, h3, h4, qcTable_spec h5, by rw [h6]; simp⟩
  rw [h6]
  simp only
  rw [if_neg (name_ne a q).symm, h1]

/-! ## C142 -/

/-- C142: whatever happens (failed downloads, failed conversions, refused questions), the quality-controlled file is afterwards either what it
was before or the complete result of the chosen method for the source file on disk, with its flags and positions; if the program ends with an
exception it is what it was before. -/
theorem C142_all_or_nothing (env : Env) (a : Args) (w : World) (q : Str) (hq : a.qc = some q) :
    ((main env a w).1.h5 (qcName a q) = w.h5 (qcName a q) ∨ ((main env a w).2 = none ∧ QcWritten a q (main env a w).1)) ∧
    ((main env a w).2 ≠ none → (main env a w).1.h5 (qcName a q) = w.h5 (qcName a q)) := by
  rcases main_cases env a w with ⟨h1, h2⟩ | ⟨w1, h1, h2, h3⟩
  · exact ⟨.inl (by rw [h1]), fun _ => by rw [h1]⟩
  · rw [h3]
    have f := convert_frame env a w1
    cases hc : convert env a w1 with
    | mk w2 e =>
      rw [hc] at f
      have hw2 : w2.h5 (qcName a q) = w.h5 (qcName a q) := by rw [f.1 _ (name_ne a q), h1]
      cases e with
      | some e => exact ⟨.inl hw2, fun _ => hw2⟩
      | none =>
        simp only [andThen]
        rcases quality_cases a q hq w2 with ⟨h4, _⟩ | h4
        · exact ⟨.inl (by rw [h4, hw2]), fun _ => by rw [h4, hw2]⟩
        · exact ⟨.inr h4.written, fun h => absurd h4.1 h⟩

/-- C142: if the file did not exist and the program ends without exception, it has been written. -/
theorem C142_created (env : Env) (a : Args) (w : World) (q : Str) (hq : a.qc = some q) (hnew : w.h5 (qcName a q) = none) (hok : (main env a w).2 = none) :
    QcWritten a q (main env a w).1 := by
  rcases main_cases env a w with ⟨_, h2⟩ | ⟨w1, h1, h2, h3⟩
  · exact absurd hok h2
  · rw [h3] at hok ⊢
    have f := convert_frame env a w1
    cases hc : convert env a w1 with
    | mk w2 e =>
      rw [hc] at f hok
      have hw2 : w2.h5 (qcName a q) = none := by rw [f.1 _ (name_ne a q), h1, hnew]
      cases e with
      | some e => simp [andThen] at hok
      | none =>
        simp only [andThen] at hok ⊢
        rcases quality_cases a q hq w2 with ⟨_, h5⟩ | h4
        · have := (h5 hok).1
          rw [hw2] at this
          simp at this
        · exact h4.written.2

/-- C142: without conversion, an existing file is replaced if the first answer is `y` or `Y`, and kept otherwise. -/
theorem C142_answer (env : Env) (a : Args) (w : World) (q ans : Str) (rest : List Str) (hq : a.qc = some q) (hold : (w.h5 (qcName a q)).isSome)
    (hno : a.makeh5 = false) (hans : w.answers = ans :: rest) (hok : (main env a w).2 = none) :
    (Yes ans → QcWritten a q (main env a w).1) ∧ (¬ Yes ans → (main env a w).1.h5 = w.h5) := by
  rcases main_cases env a w with ⟨_, h2⟩ | ⟨w1, h1, h2, h3⟩
  · exact absurd hok h2
  · rw [h3] at hok ⊢
    have hc : convert env a w1 = (w1, none) := by simp [convert, hno]
    rw [hc] at hok ⊢
    simp only [andThen] at hok ⊢
    rcases quality_cases a q hq w1 with ⟨h4, h5⟩ | h4
    · obtain ⟨_, ans', rest', h6, h7⟩ := h5 hok
      rw [h2, hans] at h6
      cases h6
      exact ⟨fun h => absurd h h7, fun _ => by rw [h4, h1]⟩
    · refine ⟨fun _ => h4.written.2, fun hn => ?_⟩
      obtain ⟨_, _, _, _, _, _, _, _, _, _, _, _, h6⟩ := h4
      rcases h6 with h6 | ⟨ans', rest', h6, h7⟩
      · rw [h1] at h6
        rw [h6] at hold
        simp at hold
      · rw [h2, hans] at h6
        cases h6
        exact absurd h7 hn

/-- C142: refusing is not an error: without -h5, whether the program ends without exception does not depend on the answer. -/
theorem C142_refusal (env : Env) (a : Args) (w : World) (ans ans' : Str) (rest : List Str) (hno : a.makeh5 = false) (hans : w.answers = ans :: rest) :
    (main env a { w with answers := ans' :: rest }).2 = none ↔ (main env a w).2 = none := by
  have hq : ∀ w : World, w.answers = ans :: rest → ((quality a { w with answers := ans' :: rest }).2 = none ↔ (quality a w).2 = none) := by
    intro w hw
    unfold quality
    cases a.qc with
    | none => rfl
    | some q =>
      simp only
      cases readKey (w.h5 (srcName a)) .data <;> cases readKey (w.h5 (srcName a)) .flag <;> cases readKey (w.h5 (srcName a)) .latlon <;>
        simp only [reduceCtorEq]
      rename_i data flag latlon
      cases qcTable q data flag with
      | error e => simp
      | ok out =>
        cases w.h5 (qcName a q) with
        | none => simp
        | some _ =>
          have hz : (writeQc none out flag latlon).2 = none := rfl
          simp only [hw]
          split_ifs <;> simp [hz]
  unfold main
  cases urls (upper a.dataset) with
  | none => simp
  | some p =>
    obtain ⟨list, xml⟩ := p
    simp only
    by_cases hm : env.mkdir = true
    · rw [if_pos hm, if_pos hm]
      have f1 := fetchMeta_frame env a xml w
      have g1 : fetchMeta env a xml { w with answers := ans' :: rest } =
          ({ (fetchMeta env a xml w).1 with answers := ans' :: rest }, (fetchMeta env a xml w).2) := by
        unfold fetchMeta
        split_ifs <;> rfl
      rw [g1]
      cases hme : fetchMeta env a xml w with
      | mk w1 e1 =>
        rw [hme] at f1
        cases e1 with
        | some e => simp [andThen]
        | none =>
          have f2 := fetchData_frame env a list w1
          have g2 : fetchData env a list { w1 with answers := ans' :: rest } =
              ({ (fetchData env a list w1).1 with answers := ans' :: rest }, (fetchData env a list w1).2) := by
            unfold fetchData
            cases env.script list <;> rfl
          simp only [andThen, g2]
          cases hd : fetchData env a list w1 with
          | mk w2 e2 =>
            rw [hd] at f2
            cases e2 with
            | some e => simp
            | none =>
              simp only [convert, hno, Bool.false_eq_true, if_false]
              exact hq w2 (f2.2.trans (f1.2.trans hans))
    · rw [if_neg hm, if_neg hm]

/-! ## C143 -/

theorem quality_none {a : Args} (h : a.qc = none) (w : World) : quality a w = (w, none) := by simp [quality, h]

theorem quality_frame (a : Args) (w : World) (n : Str) (hn : ∀ q, a.qc = some q → n ≠ qcName a q) : (quality a w).1.h5 n = w.h5 n := by
  cases hq : a.qc with
  | none => rw [quality_none hq]
  | some q =>
    rcases quality_cases a q hq w with ⟨h, _⟩ | ⟨_, _, _, _, _, _, _, _, _, _, _, h, _⟩
    · rw [h]
    · rw [h]; simp [hn q hq]

/-- C143: only the source file and the quality-controlled file of the chosen method can change; the source file only with `-h5`. -/
theorem C143_frame (env : Env) (a : Args) (w : World) (n : Str) :
    (n ≠ srcName a → (∀ q, a.qc = some q → n ≠ qcName a q) → (main env a w).1.h5 n = w.h5 n) ∧
    (a.makeh5 = false → (main env a w).1.h5 (srcName a) = w.h5 (srcName a)) := by
  rcases main_cases env a w with ⟨h1, _⟩ | ⟨w1, h1, h2, h3⟩
  · exact ⟨fun _ _ => by rw [h1], fun _ => by rw [h1]⟩
  · rw [h3]
    have f := convert_frame env a w1
    have hc0 : a.makeh5 = false → convert env a w1 = (w1, none) := fun h => by simp [convert, h]
    cases hc : convert env a w1 with
    | mk w2 e =>
      rw [hc] at f hc0
      cases e with
      | some e =>
        refine ⟨fun h _ => by simpa [andThen, h1] using f.1 n h, fun h => ?_⟩
        have := hc0 h
        simp at this
      | none =>
        simp only [andThen]
        refine ⟨fun h hn => ?_, fun h => ?_⟩
        · rw [quality_frame a w2 n hn, f.1 n h, h1]
        · rw [quality_frame a w2 (srcName a) (fun q _ => (name_ne a q).symm)]
          have := hc0 h
          simp only [Prod.mk.injEq, and_true] at this
          rw [this, h1]

/-- C143: if the user never answers `y` or `Y`, no HDF file that existed before is changed or removed. -/
theorem C143_no_consent (env : Env) (a : Args) (w : World) (hno : ∀ ans ∈ w.answers, ¬ Yes ans) (n : Str) (hn : (w.h5 n).isSome) :
    (main env a w).1.h5 n = w.h5 n := by
  rcases main_cases env a w with ⟨h1, _⟩ | ⟨w1, h1, h2, h3⟩
  · rw [h1]
  · rw [h3]
    have f := convert_frame env a w1
    have hkeep : (convert env a w1).1.h5 n = w1.h5 n := by
      by_cases hs : n = srcName a
      · rw [convert_keep env a w1 (by rw [h1, ← hs]; exact hn) (by rw [h2]; exact hno)]
      · exact f.1 n hs
    cases hc : convert env a w1 with
    | mk w2 e =>
      rw [hc] at f hkeep
      simp only at f hkeep
      cases e with
      | some e => simp only [andThen]; rw [hkeep, h1]
      | none =>
        simp only [andThen]
        cases hq : a.qc with
        | none => rw [quality_none hq]; simp only; rw [hkeep, h1]
        | some q =>
          rcases quality_cases a q hq w2 with ⟨h, _⟩ | ⟨_, _, _, _, _, _, _, _, _, _, _, h, h6⟩
          · rw [h, hkeep, h1]
          · rw [h]
            simp only
            split_ifs with he
            · exfalso
              rcases h6 with h6 | ⟨ans, rest, h6, h7⟩
              · rw [← he, hkeep, h1] at h6
                rw [h6] at hn
                simp at hn
              · refine hno ans ?_ h7
                rw [← h2]
                exact f.2.subset (by rw [h6]; exact List.mem_cons_self)
            · rw [hkeep, h1]

/-- C143: an unknown dataset name changes nothing and is reported; a failed download leaves all HDF files alone. -/
theorem C143_early_errors (env : Env) (a : Args) (w : World) :
    (upper a.dataset ≠ "HOPE".toList → upper a.dataset ≠ "HOPE-MELPITZ".toList → upper a.dataset ≠ "LINDENBERG".toList → main env a w = (w, some .valueError)) ∧
    (∀ list xml, urls (upper a.dataset) = some (list, xml) → env.script list = none → a.getMeta = false → env.mkdir = true → main env a w = (w, some .osError)) ∧
    (∀ list xml, urls (upper a.dataset) = some (list, xml) → env.web xml = none → a.getMeta = true → (main env a w).1 = w ∧ (main env a w).2 = some .osError) := by
  refine ⟨fun h1 h2 h3 => ?_, fun list xml hu hs hm hk => ?_, fun list xml hu hs hm => ?_⟩
  · have hu : urls (upper a.dataset) = none := by
      unfold urls
      rw [if_neg h1, if_neg h2, if_neg h3]
    unfold main
    rw [hu]
  · have e1 : fetchMeta env a xml w = (w, none) := by unfold fetchMeta; rw [hm]; rfl
    have e2 : fetchData env a list w = (w, some .osError) := by unfold fetchData; rw [hs]
    unfold main
    rw [hu]
    simp only [hk, if_true, e1, andThen, e2]
  · unfold main
    rw [hu]
    simp only
    split_ifs with hk
    · simp only [fetchMeta, hm, if_true, download, hs, andThen, run, List.foldl_cons, List.foldl_nil, Act.apply]
      constructor <;> first | trivial | rfl
    · exact ⟨rfl, rfl⟩

/-! ## C144 -/

theorem convert_fs (env : Env) (a : Args) (w : World) : (convert env a w).1.fs = w.fs := by
  unfold convert
  have f := (convertOnce_frame env a false w).2.2
  split_ifs with hm
  · cases hc : convertOnce env a false w with
    | mk w1 e =>
      rw [hc] at f
      simp only at f
      cases e with
      | none => exact f
      | some e =>
        cases e with
        | valueError =>
          simp only
          cases ha : w1.answers with
          | nil => exact f
          | cons ans rest =>
            simp only
            split_ifs
            · exact ((convertOnce_frame env a true { w1 with answers := rest }).2.2).trans f
            · exact f
        | _ => exact f
  · rfl

theorem quality_fs (a : Args) (w : World) : (quality a w).1.fs = w.fs := by
  unfold quality
  cases a.qc with
  | none => rfl
  | some q =>
    simp only
    cases readKey (w.h5 (srcName a)) .data with
    | error e => rfl
    | ok data =>
      cases readKey (w.h5 (srcName a)) .flag with
      | error e => rfl
      | ok flag =>
        cases readKey (w.h5 (srcName a)) .latlon with
        | error e => rfl
        | ok latlon =>
          simp only
          cases qcTable q data flag with
          | error e => rfl
          | ok out =>
            simp only
            cases w.h5 (qcName a q) with
            | none => rfl
            | some old =>
              simp only
              cases w.answers with
              | nil => rfl
              | cons ans rest =>
                simp only
                split_ifs <;> rfl

/-- The first conversion without a previous file is a fresh one. -/
theorem convertOnce_fresh (env : Env) (a : Args) (ov : Bool) (w : World) (h : ov = true ∧ env.ls w.fs ≠ none ∨ w.h5 (srcName a) = none) :
    convertOnce env a ov w = (w.setH5 (srcName a) (fresh env w.fs).1, (fresh env w.fs).2) := by
  have key : exec (w.h5 (srcName a)) (datasetToH5 (env.ls w.fs) (fun fn => (env.read w.fs fn).bind parseFile) (w.h5 (srcName a)) ov) = fresh env w.fs := by
    unfold fresh
    rcases h with ⟨h, hl⟩ | h
    · subst h
      exact (C83_overwrite (env.ls w.fs) hl (fun fn => (env.read w.fs fn).bind parseFile) (w.h5 (srcName a)) none false true 0).1
    · rw [h]
      unfold datasetToH5
      cases getfiles (env.ls w.fs) (some ['.', 'n', 'c']) true with
      | error e => rfl
      | ok files => simp
  unfold convertOnce
  simp only [key]

theorem setH5_get (w : World) (n : Str) (h : HFile Lab HRow) : (w.setH5 n h).h5 n = h := by simp [World.setH5]

/-- C144 (the part that holds): if the program ends without exception, there was no source file before, and the stations of the `.nc` files are
the same (in whatever order each file lists them; the first file has at least one station and one record), then the source file holds every record of every file, each under its own station,
together with its flag, and the positions of the stations; and a new quality-controlled file is derived from all of them.
Missing: files with different stations (`C144_violated_incomplete`). -/
theorem C144_end_to_end_partial (env : Env) (a : Args) (w w' : World) (hok : main env a w = (w', none)) (hh5 : a.makeh5 = true) (hsrc : w.h5 (srcName a) = none)
    (entries : List (Str × Bool)) (hls : env.ls w'.fs = some entries) (files : List Str) (hfiles : getfiles (some entries) (some ['.', 'n', 'c']) true = .ok files)
    (nc : Nc) (ncs : List Nc) (hread : files.map (env.read w'.fs) = (nc :: ncs).map .ok) (hc : ∀ x ∈ nc :: ncs, x.Consistent) (hnd : nc.ids.Nodup)
    (hids : ∀ x ∈ ncs, x.ids.Perm nc.ids) (hst : nc.ids ≠ []) (htm : nc.time ≠ []) :
    w'.h5 (srcName a) = some (fileOf (allReadings Nc.rsds nc ncs) (allReadings Nc.flag nc ncs) (positions nc)) ∧
    ∀ q, a.qc = some q → w.h5 (qcName a q) = none → ∃ out, QcOf q (allReadings Nc.rsds nc ncs) (allReadings Nc.flag nc ncs) out ∧
      w'.h5 (qcName a q) = some (fileOf out (allReadings Nc.flag nc ncs) (positions nc)) := by
  have hsource : w'.h5 (srcName a) = some (fileOf (allReadings Nc.rsds nc ncs) (allReadings Nc.flag nc ncs) (positions nc)) := by
    rcases main_cases env a w with ⟨_, h2⟩ | ⟨w1, h1, h2, h3⟩
    · rw [hok] at h2
      exact absurd rfl h2
    · rw [hok] at h3
      have hcfs := convert_fs env a w1
      cases hcv : convert env a w1 with
      | mk w2 e =>
        rw [hcv] at h3 hcfs
        cases e with
        | some e => simp [andThen] at h3
        | none =>
          simp only [andThen] at h3 hcfs
          have hqfs := quality_fs a w2
          have hqh := quality_frame a w2 (srcName a) (fun q _ => (name_ne a q).symm)
          rw [← h3] at hqfs hqh
          simp only at hqfs hqh
          have hfs : w1.fs = w'.fs := by rw [hqfs, hcfs]
          have hfr := fresh_content env w'.fs entries hls files hfiles nc ncs hread hc hnd hids hst htm
          rw [← hfs] at hfr
          have hco := convertOnce_fresh env a false w1 (.inr (by rw [h1, hsrc]))
          rw [hfr] at hco
          unfold convert at hcv
          rw [if_pos hh5, hco] at hcv
          simp only [Prod.mk.injEq, and_true] at hcv
          rw [hqh, ← hcv, setH5_get]
  refine ⟨hsource, fun q hq hnew => ?_⟩
  obtain ⟨st, data, flag, latlon, out, h1, h2, h3, h4, h5, h6⟩ := C142_created env a w q hq hnew (by rw [hok])
  rw [hok] at h1 h6
  simp only at h1 h6
  rw [hsource] at h1
  cases h1
  simp only [fileOf, Option.some.injEq] at h2 h3 h4
  subst h2 h3 h4
  exact ⟨out, h5, h6⟩

/-- If everything listed is already there, the download steps change nothing. -/
theorem main_present (env : Env) (a : Args) (w : World) (list xml : Str) (hu : urls (upper a.dataset) = some (list, xml)) (hmk : env.mkdir = true) (hmeta : a.getMeta = false)
    (hp : Present env a list w) : main env a w = andThen (convert env a w) (quality a) := by
  obtain ⟨rows, hs, hrows⟩ := hp
  have e1 : fetchMeta env a xml w = (w, none) := by unfold fetchMeta; rw [hmeta]; rfl
  have e2 : fetchData env a list w = (w, none) := by
    unfold fetchData
    rw [hs]
    simp only
    rw [wget_idle env.web a.target rows w.fs (fun row hrow => by
      obtain ⟨v, hv, h2⟩ := hrows row hrow
      exact ⟨_, by simp [target, hv], h2⟩)]
    rfl
  unfold main
  rw [hu]
  simp only [hmk, if_true, e1, andThen, e2]

/-- C144: the hypotheses of the previous theorem are met: with everything downloaded and no earlier output, `-h5 -q null` and `-h5 -q flag`
always end without exception. -/
theorem C144_succeeds (env : Env) (a : Args) (w : World) (list xml : Str) (hu : urls (upper a.dataset) = some (list, xml)) (hmk : env.mkdir = true) (hmeta : a.getMeta = false)
    (hp : Present env a list w) (hh5 : a.makeh5 = true) (hsrc : w.h5 (srcName a) = none) (q : Str) (hq : a.qc = some q) (hm : q = "null".toList ∨ q = "flag".toList)
    (hnew : w.h5 (qcName a q) = none) (entries : List (Str × Bool)) (hls : env.ls w.fs = some entries) (files : List Str)
    (hfiles : getfiles (some entries) (some ['.', 'n', 'c']) true = .ok files) (nc : Nc) (ncs : List Nc) (hread : files.map (env.read w.fs) = (nc :: ncs).map .ok)
    (hc : ∀ x ∈ nc :: ncs, x.Consistent) (hnd : nc.ids.Nodup) (hids : ∀ x ∈ ncs, x.ids.Perm nc.ids) (hst : nc.ids ≠ [])
    (htm : nc.time ≠ []) :
    ∃ w', main env a w = (w', none) ∧ w'.fs = w.fs := by
  have hfr := fresh_content env w.fs entries hls files hfiles nc ncs hread hc hnd hids hst htm
  have hco := convertOnce_fresh env a false w (.inr hsrc)
  rw [hfr] at hco
  have hcv : convert env a w = (w.setH5 (srcName a) (some (fileOf (allReadings Nc.rsds nc ncs) (allReadings Nc.flag nc ncs) (positions nc))), none) := by
    unfold convert
    rw [if_pos hh5, hco]
  rw [main_present env a w list xml hu hmk hmeta hp, hcv]
  simp only [andThen]
  set w2 := w.setH5 (srcName a) (some (fileOf (allReadings Nc.rsds nc ncs) (allReadings Nc.flag nc ncs) (positions nc))) with hw2
  have hs : w2.h5 (srcName a) = some (fileOf (allReadings Nc.rsds nc ncs) (allReadings Nc.flag nc ncs) (positions nc)) := setH5_get _ _ _
  have ht : w2.h5 (qcName a q) = none := by
    rw [hw2]
    unfold World.setH5
    simp only
    rw [if_neg (name_ne a q), hnew]
  obtain ⟨out, hout⟩ : ∃ out, qcTable q (allReadings Nc.rsds nc ncs) (allReadings Nc.flag nc ncs) = .ok out := by
    unfold qcTable
    have hlab : labels (allReadings Nc.rsds nc ncs) = labels (allReadings Nc.flag nc ncs) := by
      simp [labels, allReadings, readings, List.map_flatMap, Function.comp_def]
    rcases hm with rfl | rfl
    · rw [if_neg (by decide), if_pos rfl]; exact ⟨_, rfl⟩
    · rw [if_neg (by decide), if_neg (by decide), if_pos rfl]
      unfold flagTbl
      rw [if_pos ⟨rfl, hlab⟩]
      exact ⟨_, rfl⟩
  refine ⟨(quality a w2).1, ?_, by rw [quality_fs]; rfl⟩
  refine Prod.ext_iff.2 ⟨rfl, ?_⟩
  unfold quality
  rw [hq, hs]
  simp only [readKey, fileOf, hout, ht, writeQc_eq]

/-- C144 is violated: if a later file has other stations, appending it raises `ValueError`, which is taken for "File exists": with the answer
"no" the program goes on, and ends without exception with a source file and a quality-controlled file that hold only the records of
the first file. -/
theorem C144_violated_incomplete (env : Env) (a : Args) (w : World) (list xml : Str) (hu : urls (upper a.dataset) = some (list, xml)) (hmk : env.mkdir = true) (hmeta : a.getMeta = false)
    (hp : Present env a list w) (hh5 : a.makeh5 = true) (hsrc : w.h5 (srcName a) = none) (hq : a.qc = some "null".toList) (hnew : w.h5 (qcName a "null".toList) = none)
    (ans : Str) (rest : List Str) (hans : w.answers = ans :: rest) (hno : ¬ Yes ans)
    (entries : List (Str × Bool)) (hls : env.ls w.fs = some entries) (fn1 fn2 : Str) (files : List Str) (hfiles : getfiles (some entries) (some ['.', 'n', 'c']) true = .ok (fn1 :: fn2 :: files))
    (nc1 nc2 : Nc) (h1 : env.read w.fs fn1 = .ok nc1) (h2 : env.read w.fs fn2 = .ok nc2) (hc1 : nc1.Consistent) (hc2 : nc2.Consistent) (hnd : nc1.ids.Nodup)
    (hdiff : ¬ nc1.ids.Perm nc2.ids) (hst1 : nc1.ids ≠ []) (htm1 : nc1.time ≠ []) (hst2 : nc2.ids ≠ []) (htm2 : nc2.time ≠ []) :
    ∃ w' out, main env a w = (w', none) ∧ w'.h5 (srcName a) = some (fileOf (allReadings Nc.rsds nc1 []) (allReadings Nc.flag nc1 []) (positions nc1)) ∧
      NullOf (allReadings Nc.rsds nc1 []) out ∧ w'.h5 (qcName a "null".toList) = some (fileOf out (allReadings Nc.flag nc1 []) (positions nc1)) := by
  obtain ⟨p1, hp1, hd1, hf1, hl1⟩ := parseFile_ok hc1
  obtain ⟨p2, hp2, hd2, hf2, hl2⟩ := parseFile_ok hc2
  have hfr : fresh env w.fs = (some (fileOf (allReadings Nc.rsds nc1 []) (allReadings Nc.flag nc1 []) (positions nc1)), some .valueError) := by
    unfold fresh datasetToH5
    rw [hls, hfiles]
    have e1 : ((env.read w.fs fn1).bind parseFile) = .ok p1 := by rw [h1]; exact hp1
    have e2 : ((env.read w.fs fn2).bind parseFile) = .ok p2 := by rw [h2]; exact hp2
    simp only [Option.isSome_none, Bool.false_eq_true, if_false, convertLoop, e1, e2]
    have k1 : (Key.data = Key.latlon) = False := by simp
    have k2 : (Key.flag = Key.data) = False := by simp
    have k3 : (Key.flag = Key.latlon) = False := by simp
    have k4 : (Key.data = Key.flag) = False := by simp
    have hperm : ¬ p1.data.cols.Perm p2.data.cols := by
      rw [hd1, hd2]
      intro h
      apply hdiff
      have hinj : Function.Injective Lab.station := fun a b h => by cases h; rfl
      exact (List.map_perm_map_iff hinj).1 h
    have hne : ¬ p1.data.cols = p2.data.cols := fun h => hperm (h ▸ List.Perm.refl _)
    have hz : ∀ (nc : Nc) (f : Nc → List (List (Option ℝ))), nc.ids ≠ [] → nc.time ≠ [] → (f nc).length = nc.time.length →
        (frameOf nc.time nc.ids (f nc)).rows ≠ [] ∧ (frameOf nc.time nc.ids (f nc)).cols ≠ [] := by
      intro nc f hs ht hl
      refine ⟨?_, by simpa [frameOf] using hs⟩
      intro h
      have := congrArg List.length h
      simp only [frameOf, List.length_zip, hl, min_self, List.length_nil] at this
      exact ht (List.length_eq_zero_iff.1 this)
    have hz1 := hz nc1 Nc.rsds hst1 htm1 hc1.2.2.1
    have hz2 := hz nc1 Nc.flag hst1 htm1 hc1.2.2.2.1
    have hz3 := hz nc2 Nc.rsds hst2 htm2 hc2.2.2.1
    rw [← hd1] at hz1
    rw [← hf1] at hz2
    rw [← hd2] at hz3
    simp only [if_true, List.cons_append, List.nil_append, exec, HAct.apply, Option.elim_none, Option.elim_some, k1, k2, k3, k4, if_false, hne, hperm, false_and,
      hz1.1, hz1.2, hz2.1, hz2.2, hz3.1, hz3.2, or_self, show ((0 : ℕ) + 1 = 0) = False by simp]
    simp only [Prod.mk.injEq, and_true]
    congr 1
    funext q
    have r1 : p1.data = allReadings Nc.rsds nc1 [] := by
      rw [hd1]
      have := frameOf_rows hnd (List.Perm.refl _) Nc.rsds hc1.2.2.1 hc1.2.2.2.2.1
      simp only [rowsFor, frameOf, if_true] at this
      simp [frameOf, allReadings, this]
    have r2 : p1.flag = allReadings Nc.flag nc1 [] := by
      rw [hf1]
      have := frameOf_rows hnd (List.Perm.refl _) Nc.flag hc1.2.2.2.1 hc1.2.2.2.2.2
      simp only [rowsFor, frameOf, if_true] at this
      simp [frameOf, allReadings, this]
    cases q <;> simp [fileOf, ← r1, ← r2, hl1]
  have hco := convertOnce_fresh env a false w (.inr hsrc)
  rw [hfr] at hco
  have hcv : convert env a w = ({ w.setH5 (srcName a) (some (fileOf (allReadings Nc.rsds nc1 []) (allReadings Nc.flag nc1 []) (positions nc1))) with answers := rest }, none) := by
    unfold convert
    rw [if_pos hh5, hco]
    simp only
    have : (w.setH5 (srcName a) (some (fileOf (allReadings Nc.rsds nc1 []) (allReadings Nc.flag nc1 []) (positions nc1)))).answers = ans :: rest := hans
    rw [this]
    simp only
    rw [if_neg (by rw [lower_yes]; exact hno)]
  rw [main_present env a w list xml hu hmk hmeta hp, hcv]
  simp only [andThen]
  set w2 : World := { w.setH5 (srcName a) (some (fileOf (allReadings Nc.rsds nc1 []) (allReadings Nc.flag nc1 []) (positions nc1))) with answers := rest } with hw2
  have hs : w2.h5 (srcName a) = some (fileOf (allReadings Nc.rsds nc1 []) (allReadings Nc.flag nc1 []) (positions nc1)) := setH5_get _ _ _
  have ht : w2.h5 (qcName a "null".toList) = none := by
    rw [hw2]
    unfold World.setH5
    simp only
    rw [if_neg (name_ne a _), hnew]
  have hout : qcTable "null".toList (allReadings Nc.rsds nc1 []) (allReadings Nc.flag nc1 []) = .ok (nullTbl (allReadings Nc.rsds nc1 [])) := by
    unfold qcTable
    rw [if_neg (by decide), if_pos rfl]
  refine ⟨_, nullTbl (allReadings Nc.rsds nc1 []), Prod.ext rfl ?_, ?_, nullTbl_spec _, ?_⟩
  · unfold quality
    rw [hq, hs]
    simp only [readKey, fileOf, hout, ht, writeQc_eq]
  · rw [quality_frame a w2 (srcName a) (fun q _ => (name_ne a q).symm), hs]
  · unfold quality
    rw [hq, hs]
    simp only [readKey, fileOf, hout, ht, writeQc_eq, setH5_get]

/-! ## C145 -/

theorem lower_of_upper {d d' : Str} (h : upper d = upper d') : lower d = lower d' := by
  have e : ∀ s : Str, lower (upper s) = lower s := by
    intro s
    simp only [lower, upper, List.map_map]
    apply List.map_congr_left
    intro c _
    exact lower_upper c
  rw [← e d, ← e d', h]

/-- C145 (the part that holds): the case of the dataset's name does not matter (apart from the name of the metadata file).
Missing: the name of the method (`C145_violated_qc_case`). -/
theorem C145_dataset_partial (env : Env) (a : Args) (w : World) (d : Str) (hd : upper d = upper a.dataset) (hm : a.getMeta = false) :
    main env { a with dataset := d } w = main env a w := by
  have hs : srcName { a with dataset := d } = srcName a := by simp only [srcName, lower_of_upper hd]
  have hq : ∀ q, qcName { a with dataset := d } q = qcName a q := by intro q; simp only [qcName, lower_of_upper hd]
  have hc : convert env { a with dataset := d } = convert env a := by
    funext w
    simp only [convert, convertOnce, hs]
  have hqu : quality { a with dataset := d } = quality a := by
    funext w
    simp only [quality, hs, hq]
  have hfm : ∀ xml, fetchMeta env { a with dataset := d } xml w = fetchMeta env a xml w := by
    intro xml
    have e1 : fetchMeta env { a with dataset := d } xml w = (w, none) := by unfold fetchMeta; rw [if_neg (by simp [hm])]
    have e2 : fetchMeta env a xml w = (w, none) := by unfold fetchMeta; rw [if_neg (by simp [hm])]
    rw [e1, e2]
  have hfd : fetchData env { a with dataset := d } = fetchData env a := rfl
  unfold main
  simp only [hd, hc, hqu, hfm, hfd]

/-- C145: a method other than the three always ends in an exception and leaves the file it would have written alone. -/
theorem C145_unknown_method (env : Env) (a : Args) (w : World) (q : Str) (hq : a.qc = some q) (h1 : q ≠ "interp".toList) (h2 : q ≠ "null".toList) (h3 : q ≠ "flag".toList) :
    (main env a w).2 ≠ none ∧ (main env a w).1.h5 (qcName a q) = w.h5 (qcName a q) := by
  have key : (main env a w).2 ≠ none := by
    rcases main_cases env a w with ⟨_, h⟩ | ⟨w1, _, _, h⟩
    · exact h
    · rw [h]
      cases hc : convert env a w1 with
      | mk w2 e =>
        cases e with
        | some e => simp [andThen]
        | none =>
          simp only [andThen]
          unfold quality
          rw [hq]
          simp only
          have hqc : ∀ data flag, qcTable q data flag = .error .valueError := by
            intro data flag
            unfold qcTable
            rw [if_neg h1, if_neg h2, if_neg h3]
          cases readKey (w2.h5 (srcName a)) .data with
          | error e => simp
          | ok data =>
            cases readKey (w2.h5 (srcName a)) .flag with
            | error e => simp
            | ok flag =>
              cases readKey (w2.h5 (srcName a)) .latlon with
              | error e => simp
              | ok latlon => simp [hqc]
  exact ⟨key, (C142_all_or_nothing env a w q hq).2 key⟩

/-- C145 is violated: the name of the method is compared as typed, although the file name ignores its case: any other spelling of a method
(`INTERP`, `Null`) always ends in an exception. -/
theorem C145_violated_qc_case (env : Env) (a : Args) (w : World) (q : Str) (hq : a.qc = some q) (hl : lower q = "interp".toList ∨ lower q = "null".toList ∨ lower q = "flag".toList)
    (hcase : q ≠ lower q) : qcName a q = qcName a (lower q) ∧ (main env a w).2 ≠ none := by
  have e : ∀ s : Str, lower (lower s) = lower s → qcName a s = qcName a (lower s) := by
    intro s h
    simp only [qcName, h]
  have hlit : lower "interp".toList = "interp".toList ∧ lower "null".toList = "null".toList ∧ lower "flag".toList = "flag".toList := by
    refine ⟨?_, ?_, ?_⟩ <;> decide +kernel
  refine ⟨e q ?_, (C145_unknown_method env a w q hq ?_ ?_ ?_).1⟩
  · rcases hl with h | h | h <;> rw [h]
    · exact hlit.1
    · exact hlit.2.1
    · exact hlit.2.2
  · intro h; apply hcase; rw [h, hlit.1]
  · intro h; apply hcase; rw [h, hlit.2.1]
  · intro h; apply hcase; rw [h, hlit.2.2]

example : lower "Interp".toList = "interp".toList ∧ "Interp".toList ≠ lower "Interp".toList := by
  constructor <;> decide +kernel

example : upper "Hope-Melpitz".toList = upper "HOPE-melpitz".toList ∧ (urls (upper "Hope-Melpitz".toList)).isSome := by
  constructor <;> decide +kernel

/-! ## C146 -/

theorem convert_yes (env : Env) (a : Args) (w : World) (hh5 : a.makeh5 = true) (hy : ∀ ans ∈ w.answers, Yes ans) (hok : (convert env a w).2 = none) :
    (fresh env w.fs).2 = none ∧ (convert env a w).1.h5 = (w.setH5 (srcName a) (fresh env w.fs).1).h5 := by
  have hls : env.ls w.fs = none → convertOnce env a false w = (w, some .osError) := by
    intro h
    unfold convertOnce
    simp only [h]
    rw [C132_listing_partial]
    simp only [setH5_self]
  unfold convert at hok ⊢
  rw [if_pos hh5] at hok ⊢
  by_cases hl : env.ls w.fs = none
  · rw [hls hl] at hok
    simp at hok
  cases hs : w.h5 (srcName a) with
  | none =>
    have hco := convertOnce_fresh env a false w (.inr hs)
    rw [hco] at hok ⊢
    cases he : (fresh env w.fs).2 with
    | none => exact ⟨rfl, rfl⟩
    | some e =>
      rw [he] at hok
      cases e with
      | valueError =>
        exfalso
        simp only at hok
        cases ha : (w.setH5 (srcName a) (fresh env w.fs).1).answers with
        | nil => rw [ha] at hok; simp at hok
        | cons ans rest =>
          rw [ha] at hok
          simp only at hok
          rw [if_pos ((lower_yes ans).2 (hy ans (by
            have : w.answers = ans :: rest := ha
            rw [this]; exact List.mem_cons_self)))] at hok
          rw [convertOnce_fresh env a true { w.setH5 (srcName a) (fresh env w.fs).1 with answers := rest } (.inl ⟨rfl, hl⟩)] at hok
          simp only [World.setH5] at hok
          rw [he] at hok
          simp at hok
      | _ => simp at hok
  | some st =>
    rcases convertOnce_refuse env a w (by rw [hs]; rfl) with hco | hco
    · rw [hco] at hok ⊢
      simp only at hok ⊢
      cases ha : w.answers with
      | nil => rw [ha] at hok; simp at hok
      | cons ans rest =>
        rw [ha] at hok
        simp only at hok ⊢
        have hya : lower ans = ['y'] := (lower_yes ans).2 (hy ans (by rw [ha]; exact List.mem_cons_self))
        rw [if_pos hya] at hok ⊢
        rw [convertOnce_fresh env a true { w with answers := rest } (.inl ⟨rfl, hl⟩)] at hok ⊢
        exact ⟨hok, rfl⟩
    · rw [hco] at hok
      simp at hok

theorem convert_again (env : Env) (a : Args) (w : World) (hh5 : a.makeh5 = true) (y1 y2 : Str) (h1 : Yes y1) (h2 : Yes y2) (hans : w.answers = [y1, y2])
    (hfr : (fresh env w.fs).2 = none) :
    (convert env a w).2 = none ∧ (convert env a w).1.h5 = (w.setH5 (srcName a) (fresh env w.fs).1).h5 ∧ ∃ y rest, (convert env a w).1.answers = y :: rest ∧ Yes y := by
  have hl : env.ls w.fs ≠ none := by
    intro h
    unfold fresh at hfr
    rw [h, C132_listing_partial] at hfr
    simp at hfr
  unfold convert
  rw [if_pos hh5]
  cases hs : w.h5 (srcName a) with
  | none =>
    rw [convertOnce_fresh env a false w (.inr hs), hfr]
    exact ⟨rfl, rfl, y1, [y2], hans, h1⟩
  | some st =>
    rcases convertOnce_refuse env a w (by rw [hs]; rfl) with hco | hco
    · rw [hco]
      simp only [hans]
      rw [if_pos ((lower_yes y1).2 h1), convertOnce_fresh env a true { w with answers := [y2] } (.inl ⟨rfl, hl⟩)]
      exact ⟨hfr, rfl, y2, [], rfl, h2⟩
    · exfalso
      obtain ⟨d, hd⟩ := Option.ne_none_iff_exists'.1 hl
      unfold convertOnce at hco
      simp only [hs, hd] at hco
      rw [C83_refuse] at hco
      simp at hco

/-- The download steps leave a state on which they change nothing. -/
theorem fetch_again (env : Env) (a : Args) (list xml : Str) (w w1 w2 : World) (h1 : fetchMeta env a xml w = (w1, none)) (h2 : fetchData env a list w1 = (w2, none))
    (w3 : World) (h3 : w3.fs = w2.fs) : fetchMeta env a xml w3 = (w3, none) ∧ fetchData env a list w3 = (w3, none) := by
  unfold fetchData at h2 ⊢
  cases hs : env.script list with
  | none => rw [hs] at h2; simp at h2
  | some rows =>
    rw [hs] at h2
    simp only [Prod.mk.injEq] at h2 ⊢
    have hw : wgetRows env.web a.target rows w1.fs = ((wgetRows env.web a.target rows w1.fs).1, none) := Prod.ext rfl h2.2
    have hfs2 : w2.fs = run w1.fs (wgetRows env.web a.target rows w1.fs).1 := by rw [← h2.1]
    have hidle := C79_idempotent env.web env.web a.target rows w1.fs _ hw
    rw [← hfs2, ← h3] at hidle
    constructor
    · unfold fetchMeta at h1 ⊢
      split_ifs at h1 ⊢ with hm
      · simp only [Prod.mk.injEq] at h1 ⊢
        set fn := a.dataset ++ "_metadata.xml".toList with hfn
        have hd : download env.web xml (join a.target fn) fn = ((download env.web xml (join a.target fn) fn).1, none) := Prod.ext rfl h1.2
        obtain ⟨c, hc, _, hrun⟩ := download_run hd w.fs
        obtain ⟨c', hc', _, hrun'⟩ := download_run hd w3.fs
        rw [hc] at hc'
        cases hc'
        refine ⟨?_, h1.2⟩
        have hp : w3.fs (join a.target fn) = some c := by
          rw [h3, hfs2]
          have hc1 : w1.fs (join a.target fn) = some c := by
            rw [← h1.1]
            simp only
            rw [hrun]
            simp
          have := C79_existing_untouched env.web a.target rows w1.fs (wgetRows env.web a.target rows w1.fs).1.length _ c hc1
          rwa [List.take_length] at this
        have : run w3.fs (download env.web xml (join a.target fn) fn).1 = w3.fs := by
          rw [hrun']
          funext q
          by_cases hq : q = join a.target fn
          · simp [hq, hp]
          · simp [hq]
        rw [this]
      · rfl
    · rw [hidle]
      exact ⟨rfl, rfl⟩

/-- C146: after a run that ended without exception and in which the user agreed whenever asked, a second run (agreeing again) ends
without exception and leaves every downloaded file and every HDF file exactly as it is. -/
theorem C146_rerun (env : Env) (a : Args) (w w' : World) (hok : main env a w = (w', none)) (hy : ∀ ans ∈ w.answers, Yes ans) (y1 y2 : Str) (h1 : Yes y1) (h2 : Yes y2) :
    ∃ w'', main env a { w' with answers := [y1, y2] } = (w'', none) ∧ w''.fs = w'.fs ∧ w''.h5 = w'.h5 := by
  unfold main at hok ⊢
  cases hu : urls (upper a.dataset) with
  | none => rw [hu] at hok; simp at hok
  | some p =>
    obtain ⟨list, xml⟩ := p
    rw [hu] at hok
    simp only at hok ⊢
    by_cases hm : env.mkdir = true
    · rw [if_pos hm] at hok ⊢
      have f1 := fetchMeta_frame env a xml w
      cases hme : fetchMeta env a xml w with
      | mk w1 e1 =>
        rw [hme] at hok f1
        cases e1 with
        | some e => simp [andThen] at hok
        | none =>
          have f2 := fetchData_frame env a list w1
          cases hd : fetchData env a list w1 with
          | mk w2 e2 =>
            simp only [andThen, hd] at hok
            rw [hd] at f2
            simp only at f1 f2
            cases e2 with
            | some e => simp at hok
            | none =>
              simp only at hok
              have hy2 : ∀ ans ∈ w2.answers, Yes ans := by rw [f2.2, f1.2]; exact hy
              have fc := convert_frame env a w2
              have hcfs := convert_fs env a w2
              cases hc : convert env a w2 with
              | mk w3 e3 =>
                rw [hc] at hok fc hcfs
                simp only at hcfs fc
                cases e3 with
                | some e => simp at hok
                | none =>
                  simp only at hok
                  have hqfs := quality_fs a w3
                  rw [hok] at hqfs
                  simp only at hqfs
                  have hfs : w'.fs = w2.fs := hqfs.trans hcfs
                  obtain ⟨g1, g2⟩ := fetch_again env a list xml w w1 w2 hme hd { w' with answers := [y1, y2] } hfs
                  rw [g1]
                  simp only [andThen, g2]
                  -- the conversion
                  have hsrc : w'.h5 (srcName a) = w3.h5 (srcName a) := by
                    have := quality_frame a w3 (srcName a) (fun q _ => (name_ne a q).symm)
                    rw [hok] at this
                    exact this
                  obtain ⟨k1, k2, y, rest, k3, k4⟩ : (convert env a { w' with answers := [y1, y2] }).2 = none ∧ (convert env a { w' with answers := [y1, y2] }).1.h5 = w'.h5 ∧
                      ∃ y rest, (convert env a { w' with answers := [y1, y2] }).1.answers = y :: rest ∧ Yes y := by
                    by_cases hh5 : a.makeh5 = true
                    · obtain ⟨c1, c2⟩ := convert_yes env a w2 hh5 hy2 (by rw [hc])
                      obtain ⟨d1, d2, d3⟩ := convert_again env a { w' with answers := [y1, y2] } hh5 y1 y2 h1 h2 rfl (by simp only [hfs]; exact c1)
                      refine ⟨d1, ?_, d3⟩
                      rw [d2]
                      simp only [hfs]
                      rw [hc] at c2
                      simp only at c2
                      have : w'.h5 (srcName a) = (fresh env w2.fs).1 := by rw [hsrc, c2]; simp [World.setH5]
                      funext n
                      by_cases hn : n = srcName a
                      · simp [World.setH5, hn, this]
                      · simp [World.setH5, hn]
                    · have : convert env a { w' with answers := [y1, y2] } = ({ w' with answers := [y1, y2] }, none) := by simp [convert, hh5]
                      rw [this]
                      exact ⟨rfl, rfl, y1, [y2], rfl, h1⟩
                  have kfs := convert_fs env a { w' with answers := [y1, y2] }
                  cases hcc : convert env a { w' with answers := [y1, y2] } with
                  | mk w4 e4 =>
                    rw [hcc] at k1 k2 k3 kfs
                    simp only at k1 k2 k3 kfs
                    subst k1
                    simp only
                    -- quality control
                    cases hq : a.qc with
                    | none =>
                      rw [quality_none hq]
                      exact ⟨w4, rfl, kfs, k2⟩
                    | some q =>
                      rcases quality_cases a q hq w3 with ⟨_, q2⟩ | ⟨_, st, data, flag, latlon, out, s1, s2, s3, s4, s5, s6, _⟩
                      · rw [hok] at q2
                        obtain ⟨_, ans, rest', q3, q4⟩ := q2 rfl
                        exact absurd (hy2 ans (fc.2.subset (by rw [q3]; exact List.mem_cons_self))) q4
                      · rw [hok] at s6
                        simp only at s6
                        have t1 : w4.h5 (srcName a) = some st := by rw [k2, hsrc, s1]
                        have t2 : w4.h5 (qcName a q) = some (fileOf out flag latlon) := by rw [k2, s6]; simp
                        have hq2 : quality a w4 = (({ w4 with answers := rest }).setH5 (qcName a q) (some (fileOf out flag latlon)), none) := by
                          unfold quality
                          rw [hq, t1]
                          simp only [readKey, s2, s3, s4, s5, t2, k3, writeQc_eq]
                          rw [if_pos ((lower_yes y).2 k4)]
                        rw [hq2]
                        refine ⟨_, rfl, kfs, ?_⟩
                        funext n
                        by_cases hn : n = qcName a q
                        · simp only [World.setH5, hn, if_true]
                          rw [← t2, k2]
                        · simp only [World.setH5, hn, if_false]
                          rw [k2]
    · rw [if_neg hm] at hok
      simp at hok

/-! ## Examples -/

/-- Two files of one time step each, which list their two stations in different orders. -/
def nc1 : Nc := ⟨[1, 2], [some 50, some 51], [some 6, some 7], [0], [[some 100, some (-999)]], [[some 1, some 4]]⟩
def nc2 : Nc := ⟨[2, 1], [some 51, some 50], [some 7, some 6], [1], [[some 200, some 300]], [[some 2, some 1]]⟩

/-- A file with another station. -/
def nc3 : Nc := ⟨[3], [some 52], [some 8], [1], [[some 400]], [[some 1]]⟩

def demoEnv (second : Nc) : Env :=
  { web := fun _ => none, script := fun _ => some [], mkdir := true,
    ls := fun _ => some [("b.nc".toList, false), ("a.nc".toList, false), ("notes.txt".toList, false)],
    read := fun _ fn => if fn = "a.nc".toList then .ok nc1 else .ok second }

def demoArgs (q : Str) : Args := ⟨"Hope".toList, "d".toList, false, true, some q⟩

def demoWorld (answers : List Str) : World := ⟨fun _ => none, fun _ => none, answers⟩

theorem demo_files : getfiles (some [("b.nc".toList, false), ("a.nc".toList, false), ("notes.txt".toList, false)]) (some ['.', 'n', 'c']) true =
    .ok ["a.nc".toList, "b.nc".toList] := by
  rw [C80_order_free _ [("a.nc".toList, false), ("b.nc".toList, false), ("notes.txt".toList, false)] (List.Perm.swap _ _ _)]
  have e : selected (some ['.', 'n', 'c']) (([("a.nc".toList, false), ("b.nc".toList, false), ("notes.txt".toList, false)] : List (Str × Bool)).map fun e : Str × Bool => e.1) =
    ["a.nc".toList, "b.nc".toList] := by decide +kernel
  unfold getfiles
  simp only [e, if_true]
  rw [List.mergeSort_of_pairwise]
  simp only [List.pairwise_cons, List.mem_cons, List.not_mem_nil, or_false, forall_eq, decide_eq_true_eq, List.Pairwise.nil, and_true, false_imp_iff, implies_true]
  decide +kernel

theorem demo_url : ∃ list xml, urls (upper (demoArgs "null".toList).dataset) = some (list, xml) := by
  have : upper (demoArgs "null".toList).dataset = "HOPE".toList := by decide +kernel
  rw [this]
  unfold urls
  rw [if_pos rfl]
  exact ⟨_, _, rfl⟩

example : ∃ w', main (demoEnv nc2) (demoArgs "null".toList) (demoWorld []) = (w', none) ∧
    w'.h5 (srcName (demoArgs "null".toList)) = some (fileOf (allReadings Nc.rsds nc1 [nc2]) (allReadings Nc.flag nc1 [nc2]) (positions nc1)) := by
  obtain ⟨list, xml, hu⟩ := demo_url
  have hc : ∀ x ∈ [nc1, nc2], x.Consistent := by
    intro x hx
    simp only [List.mem_cons, List.not_mem_nil, or_false] at hx
    rcases hx with rfl | rfl <;> simp [Nc.Consistent, nc1, nc2]
  have hids : ∀ x ∈ [nc2], x.ids.Perm nc1.ids := by
    intro x hx
    simp only [List.mem_cons, List.not_mem_nil, or_false] at hx
    subst hx
    decide
  have hread : ["a.nc".toList, "b.nc".toList].map ((demoEnv nc2).read (demoWorld []).fs) = [nc1, nc2].map .ok := by
    simp [demoEnv]
  obtain ⟨w', h1, h2⟩ := C144_succeeds (demoEnv nc2) (demoArgs "null".toList) (demoWorld []) list xml hu rfl rfl ⟨[], rfl, by simp⟩ rfl rfl "null".toList rfl (.inl rfl) rfl _ rfl
    _ demo_files nc1 [nc2] hread hc (by decide) hids (by decide) (by simp [nc1])
  exact ⟨w', h1, (C144_end_to_end_partial _ _ _ w' h1 rfl rfl _ rfl _ demo_files nc1 [nc2] hread hc (by decide) hids (by decide) (by simp [nc1])).1⟩

/-- The reading 200 of station 2 in the second file ends up in the column of station 2. -/
example : (allReadings Nc.rsds nc1 [nc2]).cols = [.station 1, .station 2] ∧
    (allReadings Nc.rsds nc1 [nc2]).rows = [(0, [some 100, some (-999)]), (1, [some 300, some 200])] := by
  constructor
  · rfl
  · simp [allReadings, readings, nc1, nc2, List.idxOf_cons]

example : ∃ w' out, main (demoEnv nc3) (demoArgs "null".toList) (demoWorld ["n".toList]) = (w', none) ∧
    NullOf (allReadings Nc.rsds nc1 []) out ∧ w'.h5 (qcName (demoArgs "null".toList) "null".toList) = some (fileOf out (allReadings Nc.flag nc1 []) (positions nc1)) := by
  obtain ⟨list, xml, hu⟩ := demo_url
  obtain ⟨w', out, h1, _, h2, h3⟩ := C144_violated_incomplete (demoEnv nc3) (demoArgs "null".toList) (demoWorld ["n".toList]) list xml hu rfl rfl ⟨[], rfl, by simp⟩ rfl rfl rfl rfl
    "n".toList [] rfl (by unfold Yes; decide) _ rfl "a.nc".toList "b.nc".toList [] demo_files nc1 nc3 (by simp [demoEnv]) (by simp [demoEnv])
    (by simp [Nc.Consistent, nc1]) (by simp [Nc.Consistent, nc3]) (by decide) (by decide) (by decide) (by simp [nc1]) (by decide) (by simp [nc3])
  exact ⟨w', out, h1, h2, h3⟩

/-- Answering `n` instead of `y`. -/
example : (⟨"Hope".toList, "d".toList, false, false, some "null".toList⟩ : Args).makeh5 = false ∧ (demoWorld ["y".toList]).answers = "y".toList :: [] ∧
    { demoWorld ["y".toList] with answers := "n".toList :: [] } = demoWorld ["n".toList] := ⟨rfl, rfl, rfl⟩

/-- C142 and C143 apply: in the concrete case the quality-controlled file did not exist, the program ends without exception and has written it, and
files that were there before are kept because nobody consents to anything. -/
example : QcWritten (demoArgs "null".toList) "null".toList (main (demoEnv nc2) (demoArgs "null".toList) (demoWorld [])).1 ∧
    ∀ n, ((demoWorld []).h5 n).isSome → (main (demoEnv nc2) (demoArgs "null".toList) (demoWorld [])).1.h5 n = (demoWorld []).h5 n := by
  obtain ⟨list, xml, hu⟩ := demo_url
  have hc : ∀ x ∈ [nc1, nc2], x.Consistent := by
    intro x hx
    simp only [List.mem_cons, List.not_mem_nil, or_false] at hx
    rcases hx with rfl | rfl <;> simp [Nc.Consistent, nc1, nc2]
  have hids : ∀ x ∈ [nc2], x.ids.Perm nc1.ids := by
    intro x hx
    simp only [List.mem_cons, List.not_mem_nil, or_false] at hx
    subst hx
    decide
  obtain ⟨w', h1, -⟩ := C144_succeeds (demoEnv nc2) (demoArgs "null".toList) (demoWorld []) list xml hu rfl rfl ⟨[], rfl, by simp⟩ rfl rfl "null".toList rfl (.inl rfl) rfl _ rfl
    _ demo_files nc1 [nc2] (by simp [demoEnv]) hc (by decide) hids (by decide) (by simp [nc1])
  exact ⟨C142_created _ _ _ _ rfl rfl (by rw [h1]), fun n hn => C143_no_consent _ _ _ (by simp [demoWorld]) n hn⟩

end SST.HopeMain
