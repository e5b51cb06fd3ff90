import Verif.Spec.HopeMain
import Verif.Props.Hope
import Verif.Props.Hdf
import Verif.Props.DataIo

/-! # Proofs about the HOPE command line program -/

namespace SST.HopeMain
open SST SST.DataIO

theorem toLower_y {c : Char} (h : c.toLower = 'y') : c = 'y' ∨ c = 'Y' := by
  unfold Char.toLower at h
  split at h
  · right
    rename_i hc
    have h2 := congrArg (fun x : Char => x.val.toNat) h
    simp only [ge_iff_le, UInt32.le_iff_toNat_le, UInt32.toNat_add] at hc h2
    have e1 : (Char.val 'A').toNat = 65 := rfl
    have e2 : (Char.val 'Z').toNat = 90 := rfl
    have e3 : (Char.val 'y').toNat = 121 := rfl
    have e4 : (Char.val 'a' - Char.val 'A').toNat = 32 := rfl
    apply Char.ext
    apply UInt32.toNat_inj.1
    show c.val.toNat = 89
    omega
  · exact .inl h

theorem lower_upper (c : Char) : c.toUpper.toLower = c.toLower := by
  unfold Char.toUpper
  split
  · rename_i h
    unfold Char.toLower
    simp only [ge_iff_le, UInt32.le_iff_toNat_le] at h ⊢
    have e1 : (Char.val 'a').toNat = 97 := rfl
    have e2 : (Char.val 'z').toNat = 122 := rfl
    have e3 : (Char.val 'A').toNat = 65 := rfl
    have e4 : (Char.val 'Z').toNat = 90 := rfl
    have e5 : (c.val + (Char.val 'A' - Char.val 'a')).toNat = c.val.toNat - 32 := by
      rw [UInt32.toNat_add]
      have : (Char.val 'A' - Char.val 'a').toNat = 4294967264 := rfl
      rw [this]
      omega
    rw [dif_pos (by omega), dif_neg (by omega)]
    apply Char.ext
    apply UInt32.toNat_inj.1
    simp only [UInt32.toNat_add, e5]
    have : (Char.val 'a' - Char.val 'A').toNat = 32 := rfl
    rw [this]
    omega
  · rfl

theorem lower_yes (ans : Str) : lower ans = ['y'] ↔ Yes ans := by
  unfold lower Yes
  constructor
  · intro h
    match ans, h with
    | [], h => simp at h
    | [c], h =>
      simp only [List.map_cons, List.map_nil, List.cons.injEq, and_true] at h
      simpa using toLower_y h
    | _ :: _ :: _, h => simp at h
  · rintro (rfl | rfl) <;> decide

/-! ## Frames -/

theorem setH5_self (w : World) (n : Str) : w.setH5 n (w.h5 n) = w := by
  unfold World.setH5
  cases w with
  | mk fs h5 answers =>
    congr 1
    funext q
    by_cases h : q = n <;> simp [h]

theorem name_ne (a : Args) (q : Str) : qcName a q ≠ srcName a := by
  unfold qcName srcName
  intro h
  rw [List.append_assoc, List.append_assoc] at h
  have := List.append_cancel_left h
  have h2 : "-qc".toList = '-' :: "qc".toList := rfl
  have h3 : ".h5".toList = '.' :: "h5".toList := rfl
  rw [h2, h3] at this
  simp at this

theorem fetchMeta_frame (env : Env) (a : Args) (u : Str) (w : World) : (fetchMeta env a u w).1.h5 = w.h5 ∧ (fetchMeta env a u w).1.answers = w.answers := by
  unfold fetchMeta
  split_ifs <;> exact ⟨rfl, rfl⟩

theorem fetchData_frame (env : Env) (a : Args) (u : Str) (w : World) : (fetchData env a u w).1.h5 = w.h5 ∧ (fetchData env a u w).1.answers = w.answers := by
  unfold fetchData
  cases env.script u <;> exact ⟨rfl, rfl⟩

/-- Everything up to the conversion leaves the HDF files alone. -/
theorem main_cases (env : Env) (a : Args) (w : World) :
    ((main env a w).1.h5 = w.h5 ∧ (main env a w).2 ≠ none) ∨
    ∃ w1, w1.h5 = w.h5 ∧ w1.answers = w.answers ∧ main env a w = andThen (convert env a w1) (quality a) := by
  unfold main
  cases hu : urls (upper a.dataset) with
  | none => left; simp
  | some p =>
    obtain ⟨list, xml⟩ := p
    simp only
    by_cases hm : env.mkdir = true
    · rw [if_pos hm]
      have f1 := fetchMeta_frame env a xml w
      cases hme : fetchMeta env a xml w with
      | mk w1 e1 =>
        rw [hme] at f1
        cases e1 with
        | some e => left; exact ⟨f1.1, by simp [andThen]⟩
        | none =>
          have f2 := fetchData_frame env a list w1
          cases hd : fetchData env a list w1 with
          | mk w2 e2 =>
            rw [hd] at f2
            simp only [andThen, hd]
            cases e2 with
            | some e => left; exact ⟨f2.1.trans f1.1, by simp⟩
            | none => right; exact ⟨w2, f2.1.trans f1.1, f2.2.trans f1.2, rfl⟩
    · left
      rw [if_neg hm]
      exact ⟨rfl, by simp⟩

/-- Without `overwrite` an existing file is refused. -/
theorem convertOnce_refuse (env : Env) (a : Args) (w : World) (h : (w.h5 (srcName a)).isSome) :
    convertOnce env a false w = (w, some .valueError) ∨ convertOnce env a false w = (w, some .osError) := by
  obtain ⟨st, hst⟩ := Option.isSome_iff_exists.1 h
  unfold convertOnce
  simp only [hst]
  cases hl : env.ls w.fs with
  | none =>
    right
    rw [C132_listing_partial]
    rw [← hst, setH5_self]
  | some entries =>
    left
    rw [C83_refuse]
    rw [← hst, setH5_self]

theorem convertOnce_frame (env : Env) (a : Args) (ov : Bool) (w : World) :
    (∀ n, n ≠ srcName a → (convertOnce env a ov w).1.h5 n = w.h5 n) ∧ (convertOnce env a ov w).1.answers = w.answers ∧ (convertOnce env a ov w).1.fs = w.fs := by
  unfold convertOnce World.setH5
  refine ⟨fun n hn => ?_, rfl, rfl⟩
  simp [hn]

theorem convert_frame (env : Env) (a : Args) (w : World) :
    (∀ n, n ≠ srcName a → (convert env a w).1.h5 n = w.h5 n) ∧ (convert env a w).1.answers <:+ w.answers := by
  unfold convert
  have f := convertOnce_frame env a false w
  split_ifs with hm
  · cases hc : convertOnce env a false w with
    | mk w1 e =>
      rw [hc] at f
      simp only at f
      cases e with
      | none => exact ⟨f.1, by rw [f.2.1]⟩
      | some e =>
        cases e with
        | valueError =>
          simp only
          cases ha : w1.answers with
          | nil => exact ⟨f.1, by simp [ha]⟩
          | cons ans rest =>
            simp only
            have hs : rest <:+ w.answers := by rw [← f.2.1, ha]; exact List.suffix_cons _ _
            split_ifs
            · have g := convertOnce_frame env a true { w1 with answers := rest }
              exact ⟨fun n hn => (g.1 n hn).trans (f.1 n hn), by rw [g.2.1]; exact hs⟩
            · exact ⟨f.1, hs⟩
        | _ => exact ⟨f.1, by rw [f.2.1]⟩
  · exact ⟨fun _ _ => rfl, List.suffix_refl _⟩

/-- An existing source file survives the conversion step if the user never agrees. -/
theorem convert_keep (env : Env) (a : Args) (w : World) (h : (w.h5 (srcName a)).isSome) (hno : ∀ ans ∈ w.answers, ¬ Yes ans) :
    (convert env a w).1.h5 = w.h5 := by
  unfold convert
  split_ifs with hm
  · rcases convertOnce_refuse env a w h with hc | hc
    · rw [hc]
      simp only
      cases ha : w.answers with
      | nil => rfl
      | cons ans rest =>
        simp only
        rw [if_neg (by rw [lower_yes]; exact hno ans (by simp [ha]))]
    · rw [hc]
  · rfl

/-! ## Quality control -/

theorem interpNan_ok {κ : Type} {L : ℕ} {times : List ℝ} {cols out : List (κ × List (Option ℝ))} (h : interpNan L times cols = .ok out) :
    List.Forall₂ (fun c o : κ × List (Option ℝ) => o.1 = c.1 ∧ interpCol L times c.2 = .ok o.2) cols out := by
  induction cols generalizing out with
  | nil =>
    simp only [interpNan, Except.ok.injEq] at h
    subst h
    exact .nil
  | cons c cols ih =>
    obtain ⟨c, s⟩ := c
    simp only [interpNan] at h
    cases h1 : interpCol L times s with
    | error e => rw [h1] at h; simp at h
    | ok s' =>
      rw [h1] at h
      simp only at h
      cases h2 : interpNan L times cols with
      | error e => rw [h2] at h; simp at h
      | ok r =>
        rw [h2] at h
        simp only [Except.ok.injEq] at h
        subst h
        exact .cons ⟨rfl, h1⟩ (ih h2)

theorem nullCell_spec (v : Option ℝ) : NoSentinel v (nullCell v) := by
  unfold NoSentinel nullCell
  constructor
  · intro h; rw [if_pos h]
  · intro h
    rw [if_neg]
    rintro ⟨x, hx, hlt⟩
    exact absurd (h x hx) (by linarith)

theorem flagCell_spec (v f : Option ℝ) : Unflagged v f (flagCell 2 v f) := by
  unfold Unflagged flagCell
  constructor
  · intro h; rw [if_pos h]
  · intro h
    rw [if_neg]
    rintro ⟨x, hx, hlt⟩
    exact absurd (h x hx) (by linarith)

theorem nullTbl_spec (data : HTbl) : NullOf data (nullTbl data) := by
  refine ⟨rfl, ?_⟩
  simp only [nullTbl, List.forall₂_map_right_iff]
  rw [List.forall₂_same]
  intro r _
  refine ⟨rfl, ?_⟩
  rw [List.forall₂_same]
  exact fun v _ => nullCell_spec v

theorem labels_null (data : HTbl) : labels (nullTbl data) = labels data := by
  simp [labels, nullTbl]

theorem map_getD {α : Type} (l : List α) (d : α) : (List.range l.length).map (fun i => l.getD i d) = l := by
  apply List.ext_getElem
  · simp
  · intro i h1 h2
    simp only [List.getElem_map, List.getElem_range]
    exact List.getD_eq_getElem _ _ h2

theorem columns_getElem (t : HTbl) (j : ℕ) (h : j < (columns t).length) : (columns t)[j].2 = column t j := by
  simp [columns]

theorem interpTbl_spec {data out : HTbl} (h : interpTbl (nullTbl data) = .ok out) : InterpOf data out := by
  unfold interpTbl at h
  cases hi : interpNan 5 (labels (nullTbl data)) (columns (nullTbl data)) with
  | error e => rw [hi] at h; simp at h
  | ok o =>
    rw [hi] at h
    simp only [Except.ok.injEq] at h
    have hf := interpNan_ok hi
    have hlen : o.length = data.cols.length := by
      rw [← hf.length_eq]; simp [columns, nullTbl]
    have hn : (nullTbl data).rows.length = data.rows.length := by simp [nullTbl]
    have hl : (labels data).length = data.rows.length := by simp [labels]
    subst h
    refine ⟨rfl, ?_, ?_, nullTbl data, nullTbl_spec data, ?_⟩
    · simp only [labels, List.map_map]
      have := map_getD (labels data) 0
      rw [hl] at this
      rw [hn]
      conv_rhs => rw [show (data.rows.map fun r : HRow => r.1) = labels data from rfl, ← this]
      apply List.map_congr_left
      intro i _
      simp only [Function.comp]
      congr 1
      exact labels_null data
    · intro r hr
      simp only [List.mem_map] at hr
      obtain ⟨i, _, rfl⟩ := hr
      simp [hlen]
    · intro j hj
      have hj1 : j < (columns (nullTbl data)).length := by simpa [columns, nullTbl] using hj
      have hj2 : j < o.length := by omega
      have hr := (List.forall₂_iff_get.1 hf).2 j hj1 hj2
      simp only [List.get_eq_getElem, columns_getElem] at hr
      rw [← labels_null, hr.2]
      congr 1
      have hlo : (o[j]).2.length = data.rows.length := by
        have := (C82_values_partial 5 _ _ _ hr.2).1
        rw [this]
        simp [column, nullTbl]
      have := map_getD (o[j]).2 none
      rw [hlo] at this
      conv_lhs => rw [← this]
      unfold column
      rw [hn, List.map_map]
      apply List.map_congr_left
      intro i _
      simp only [Function.comp]
      have hm : j < (o.map fun c : Lab × List (Option ℝ) => c.2.getD i none).length := by simpa using hj2
      rw [List.getD_eq_getElem (l := o.map fun c : Lab × List (Option ℝ) => c.2.getD i none) _ hm]
      simp

theorem flagTbl_spec {data flag out : HTbl} (h : flagTbl data flag = .ok out) : FlagOf data flag out := by
  unfold flagTbl at h
  split_ifs at h with h1 h2
  · simp only [Except.ok.injEq] at h
    subst h
    have hlen : data.rows.length = flag.rows.length := by
      have := congrArg List.length h1.2
      simpa [labels] using this
    refine ⟨rfl, ?_, ?_⟩
    · apply List.ext_getElem
      · simp [labels, hlen]
      · intro i h3 h4
        simp [labels]
    · intro hc hl hd hf i j hi hj
      have hd' := hd data.rows[i] (List.getElem_mem hi)
      have hi' : i < flag.rows.length := by omega
      have hf' := hf flag.rows[i] (List.getElem_mem hi')
      have e : ∀ (t : HTbl) (h : i < t.rows.length), (column t j).getD i none = t.rows[i].2.getD j none := by
        intro t h
        rw [List.getD_eq_getElem _ _ (by simpa [column] using h)]
        simp [column]
      have hjd : j < data.rows[i].2.length := by omega
      have hjf : j < flag.rows[i].2.length := by rw [hf', ← hc]; omega
      rw [e data hi, e flag hi', e _ (by simp; omega)]
      rw [List.getD_eq_getElem _ _ hjd, List.getD_eq_getElem _ _ hjf]
      simp only [List.getElem_zipWith]
      rw [List.getD_eq_getElem _ _ (by simp; omega)]
      simp only [List.getElem_zipWith]
      exact flagCell_spec _ _
  · simp only [Except.ok.injEq] at h
    subst h
    refine ⟨rfl, by simp [labels], fun hc hl => absurd ⟨hc, hl⟩ h1⟩

theorem qcTable_spec {q : Str} {data flag out : HTbl} (h : qcTable q data flag = .ok out) : QcOf q data flag out := by
  unfold qcTable at h
  split_ifs at h with h1 h2 h3
  · exact .inr (.inl ⟨h1, interpTbl_spec h⟩)
  · simp only [Except.ok.injEq] at h
    subst h
    exact .inl ⟨h2, nullTbl_spec data⟩
  · exact .inr (.inr ⟨h3, flagTbl_spec h⟩)

theorem writeQc_eq (data flag latlon : HTbl) : writeQc none data flag latlon = (some (fileOf data flag latlon), none) := by
  unfold writeQc
  simp only [exec, HAct.apply, Option.elim_none, Option.elim_some, Prod.mk.injEq, and_true]
  congr 1
  funext q
  cases q <;> simp [fileOf]

/-- What the quality control step can do. -/
def Wrote (a : Args) (q : Str) (w : World) (r : World × Option PyErr) : Prop :=
  r.2 = none ∧ ∃ st data flag latlon out, w.h5 (srcName a) = some st ∧ st .data = some data ∧ st .flag = some flag ∧ st .latlon = some latlon ∧
    qcTable q data flag = .ok out ∧ (r.1.h5 = fun n => if n = qcName a q then some (fileOf out flag latlon) else w.h5 n) ∧
    (w.h5 (qcName a q) = none ∨ ∃ ans rest, w.answers = ans :: rest ∧ Yes ans)

theorem readKey_ok {h : HFile Lab HRow} {k : Key} {t : HTbl} (hr : readKey h k = .ok t) : ∃ st, h = some st ∧ st k = some t := by
  unfold readKey at hr
  cases h with
  | none => simp at hr
  | some st =>
    refine ⟨st, rfl, ?_⟩
    simp only at hr
    cases hk : st k with
    | none => rw [hk] at hr; simp at hr
    | some t' =>
      rw [hk] at hr
      simp only [Except.ok.injEq] at hr
      rw [hr]

theorem quality_cases (a : Args) (q : Str) (hq : a.qc = some q) (w : World) :
    ((quality a w).1.h5 = w.h5 ∧ ((quality a w).2 = none → (w.h5 (qcName a q)).isSome ∧ ∃ ans rest, w.answers = ans :: rest ∧ ¬ Yes ans)) ∨ Wrote a q w (quality a w) := by
  unfold quality
  rw [hq]
  simp only
  cases h1 : readKey (w.h5 (srcName a)) .data with
  | error e => left; simp
  | ok data =>
    cases h2 : readKey (w.h5 (srcName a)) .flag with
    | error e => left; simp
    | ok flag =>
      cases h3 : readKey (w.h5 (srcName a)) .latlon with
      | error e => left; simp
      | ok latlon =>
        simp only
        cases h4 : qcTable q data flag with
        | error e => left; simp
        | ok out =>
          simp only
          obtain ⟨st, hst, hd⟩ := readKey_ok h1
          obtain ⟨st2, hst2, hf⟩ := readKey_ok h2
          obtain ⟨st3, hst3, hl⟩ := readKey_ok h3
          rw [hst] at hst2 hst3
          cases hst2
          cases hst3
          cases ht : w.h5 (qcName a q) with
          | none =>
            right
            simp only [writeQc_eq]
            exact ⟨rfl, st, data, flag, latlon, out, hst, hd, hf, hl, h4, rfl, .inl ht⟩
          | some old =>
            simp only
            cases ha : w.answers with
            | nil => left; simp
            | cons ans rest =>
              simp only
              by_cases hy : lower ans = ['y']
              · rw [if_pos hy]
                right
                simp only [writeQc_eq]
                exact ⟨rfl, st, data, flag, latlon, out, hst, hd, hf, hl, h4, rfl, .inr ⟨ans, rest, ha, (lower_yes ans).1 hy⟩⟩
              · rw [if_neg hy]
                left
                exact ⟨rfl, fun _ => ⟨rfl, ans, rest, rfl, fun h => hy ((lower_yes ans).2 h)⟩⟩

/-! ## Conversion -/

theorem idxOf_station (l : List ℤ) (s : ℤ) : (l.map Lab.station).idxOf (Lab.station s) = l.idxOf s := by
  induction l with
  | nil => rfl
  | cons x l ih =>
    simp only [List.map_cons, List.idxOf_cons, ih]
    by_cases h : x = s
    · simp [h]
    · have h2 : (Lab.station x == Lab.station s) = false := by simpa using h
      have h3 : (x == s) = false := by simpa using h
      rw [h2, h3]

/-- The rows of a table brought into the order of `cols`. -/
def rowsFor {κ ρ : Type} [DecidableEq κ] [Rearrange κ ρ] (cols : List κ) (t : Tbl κ ρ) : List ρ :=
  if cols = t.cols then t.rows else t.rows.map (Rearrange.rearrange cols t.cols)

theorem apply_append {κ ρ : Type} [DecidableEq κ] [Rearrange κ ρ] (st : Key → Option (Tbl κ ρ)) (k : Key) (cs : List κ) (rs : List ρ) (t : Tbl κ ρ)
    (hk : st k = some ⟨cs, rs⟩) (hp : cs.Perm t.cols) (hn : t.cols.Nodup) (h0 : cs ≠ []) :
    HAct.apply (some st) (.append k t) = .ok (some fun q => if q = k then some ⟨cs, rs ++ rowsFor cs t⟩ else st q) := by
  have h0' : t.cols ≠ [] := fun h => h0 (List.perm_nil.1 (h ▸ hp))
  unfold HAct.apply rowsFor
  simp only [Option.elim_some, hk, Option.getD_some, h0', or_false]
  by_cases hr : t.rows = []
  · have e : (if cs = t.cols then t.rows else t.rows.map (Rearrange.rearrange cs t.cols)) = [] := by rw [hr]; simp
    rw [if_pos hr, e, List.append_nil]
    congr 2
    funext q
    split_ifs with hq
    · rw [hq, hk]
    · rfl
  rw [if_neg hr]
  by_cases h : cs = t.cols
  · simp [h]
  · simp [h, hp, hn]

theorem exec_loop_perm {κ ρ : Type} [DecidableEq κ] [Rearrange κ ρ] (parse : Str → Except PyErr (Parsed κ ρ)) (files : List Str) (ps : List (Parsed κ ρ))
    (hp : files.map parse = ps.map .ok) (cs : List κ) (hcd : ∀ p ∈ ps, cs.Perm p.data.cols ∧ p.data.cols.Nodup) (hcf : ∀ p ∈ ps, cs.Perm p.flag.cols ∧ p.flag.cols.Nodup)
    (i : ℕ) (hi : 0 < i) (st : Key → Option (Tbl κ ρ)) (rd rf : List ρ) (hd : st .data = some ⟨cs, rd⟩) (hf : st .flag = some ⟨cs, rf⟩) (h0 : cs ≠ []) :
    exec (some st) (convertLoop parse i files) =
      (some (fun q => if q = .data then some ⟨cs, rd ++ ps.flatMap fun p : Parsed κ ρ => rowsFor cs p.data⟩
        else if q = .flag then some ⟨cs, rf ++ ps.flatMap fun p : Parsed κ ρ => rowsFor cs p.flag⟩ else st q), none) := by
  induction files generalizing ps i st rd rf with
  | nil =>
    have : ps = [] := by cases ps with
      | nil => rfl
      | cons p ps => simp at hp
    subst this
    simp only [convertLoop, exec, List.flatMap_nil, List.append_nil, Prod.mk.injEq, and_true]
    congr 1
    funext q
    split_ifs with h1 h2
    · rw [h1, hd]
    · rw [h2, hf]
    · rfl
  | cons fn files ih =>
    cases ps with
    | nil => simp at hp
    | cons p ps =>
      simp only [List.map_cons, List.cons.injEq] at hp
      simp only [convertLoop, hp.1]
      rw [if_neg (by omega)]
      simp only [List.nil_append, List.cons_append, exec]
      rw [apply_append st .data cs rd p.data hd (hcd p List.mem_cons_self).1 (hcd p List.mem_cons_self).2 h0]
      simp only
      rw [apply_append _ .flag cs rf p.flag (by simpa using hf) (hcf p List.mem_cons_self).1 (hcf p List.mem_cons_self).2 h0]
      simp only
      rw [ih ps hp.2 (fun p hp => hcd p (List.mem_cons_of_mem _ hp)) (fun p hp => hcf p (List.mem_cons_of_mem _ hp)) (i + 1) (by omega) _
        (rd ++ rowsFor cs p.data) (rf ++ rowsFor cs p.flag) (by simp) (by simp)]
      simp only [Prod.mk.injEq, and_true]
      congr 1
      funext q
      cases q <;> simp

theorem frameOf_rows {nc : Nc} {stations : List ℤ} (hnd : nc.ids.Nodup) (hp : stations.Perm nc.ids) (f : Nc → List (List (Option ℝ)))
    (hl : (f nc).length = nc.time.length) (hr : ∀ r ∈ f nc, r.length = nc.ids.length) :
    rowsFor (stations.map Lab.station) (frameOf nc.time nc.ids (f nc)) = readings stations f nc := by
  unfold rowsFor readings
  by_cases h : stations.map Lab.station = (frameOf nc.time nc.ids (f nc)).cols
  · rw [if_pos h]
    have hs : stations = nc.ids := by
      have hinj : Function.Injective Lab.station := fun a b h => by cases h; rfl
      exact List.map_injective_iff.2 hinj h
    subst hs
    apply List.ext_getElem
    · simp [frameOf, hl]
    · intro i h1 h2
      have hi : i < nc.time.length := by simpa using h2
      have hi2 : i < (f nc).length := by omega
      simp only [frameOf, List.getElem_zip, List.getElem_map, List.getElem_range]
      rw [List.getD_eq_getElem _ _ hi, List.getD_eq_getElem _ _ hi2]
      congr 1
      have hlen := hr _ (List.getElem_mem hi2)
      apply List.ext_getElem
      · simp [hlen]
      · intro j h3 h4
        simp only [List.getElem_map]
        rw [hnd.idxOf_getElem, List.getD_eq_getElem _ _ h3]
  · rw [if_neg h]
    apply List.ext_getElem
    · simp [frameOf, hl]
    · intro i h1 h2
      have hi : i < nc.time.length := by simpa using h2
      have hi2 : i < (f nc).length := by omega
      simp only [frameOf, List.getElem_zip, List.getElem_map, List.getElem_range, Rearrange.rearrange, List.map_map]
      rw [List.getD_eq_getElem _ _ hi, List.getD_eq_getElem _ _ hi2]
      congr 1
      apply List.map_congr_left
      intro s _
      simp only [Function.comp]
      rw [idxOf_station]

theorem parseFile_ok {nc : Nc} (h : nc.Consistent) : ∃ p, parseFile nc = .ok p ∧ p.data = frameOf nc.time nc.ids nc.rsds ∧ p.flag = frameOf nc.time nc.ids nc.flag ∧ p.latlon = positions nc := by
  obtain ⟨h1, h2, h3, h4, h5, h6⟩ := h
  unfold parseFile
  rw [if_pos ⟨h1, h2⟩, if_pos ⟨⟨h3, h5⟩, h4, h6⟩]
  refine ⟨_, rfl, rfl, rfl, ?_⟩
  simp only [positions, Tbl.mk.injEq, true_and]
  apply List.ext_getElem
  · simp [h1, h2]
  · intro i h7 h8
    have hi : i < nc.ids.length := by simpa using h8
    simp only [List.getElem_zip, List.getElem_map, List.getElem_zipWith, List.getElem_range]
    rw [List.getD_eq_getElem _ _ hi, List.getD_eq_getElem _ _ (by omega), List.getD_eq_getElem _ _ (by omega)]

theorem map_parse {read : Str → Except PyErr Nc} {files : List Str} {ncs : List Nc} (hread : files.map read = ncs.map .ok) (hc : ∀ x ∈ ncs, x.Consistent) :
    ∃ ps : List (Parsed Lab HRow), files.map (fun fn => (read fn).bind parseFile) = ps.map .ok ∧
      List.Forall₂ (fun (nc : Nc) (p : Parsed Lab HRow) => p.data = frameOf nc.time nc.ids nc.rsds ∧ p.flag = frameOf nc.time nc.ids nc.flag ∧ p.latlon = positions nc) ncs ps := by
  induction files generalizing ncs with
  | nil =>
    cases ncs with
    | nil => exact ⟨[], rfl, .nil⟩
    | cons x l => simp at hread
  | cons fn files ih =>
    cases ncs with
    | nil => simp at hread
    | cons x l =>
      simp only [List.map_cons, List.cons.injEq] at hread
      obtain ⟨ps, h1, h2⟩ := ih hread.2 (fun y hy => hc y (List.mem_cons_of_mem _ hy))
      obtain ⟨p, hp, h3⟩ := parseFile_ok (hc x List.mem_cons_self)
      refine ⟨p :: ps, ?_, .cons h3 h2⟩
      simp only [List.map_cons, h1]
      rw [hread.1]
      congr 1

theorem flatMap_forall₂ {α β γ : Type} {R : α → β → Prop} {f : α → List γ} {g : β → List γ} {l : List α} {m : List β} (h : List.Forall₂ R l m)
    (hfg : ∀ a ∈ l, ∀ b ∈ m, R a b → f a = g b) : l.flatMap f = m.flatMap g := by
  induction h with
  | nil => rfl
  | cons hab _ ih =>
    simp only [List.flatMap_cons]
    rw [hfg _ List.mem_cons_self _ List.mem_cons_self hab, ih fun a ha b hb => hfg a (List.mem_cons_of_mem _ ha) b (List.mem_cons_of_mem _ hb)]

/-- A conversion from nothing. -/
def fresh (env : Env) (fs : FS) : HFile Lab HRow × Option PyErr :=
  exec none (datasetToH5 (env.ls fs) (fun fn => (env.read fs fn).bind parseFile) none false)

theorem station_perm {a b : List ℤ} (h : a.Perm b) : (a.map Lab.station).Perm (b.map Lab.station) := h.map _

theorem station_nodup {a : List ℤ} (h : a.Nodup) : (a.map Lab.station).Nodup :=
  h.map (fun a b h => by cases h; rfl)

theorem fresh_content (env : Env) (fs : FS) (entries : List (Str × Bool)) (hls : env.ls fs = some entries) (files : List Str)
    (hfiles : getfiles (some entries) (some ['.', 'n', 'c']) true = .ok files) (nc : Nc) (ncs : List Nc) (hread : files.map (env.read fs) = (nc :: ncs).map .ok)
    (hc : ∀ x ∈ nc :: ncs, x.Consistent) (hnd : nc.ids.Nodup) (hids : ∀ x ∈ ncs, x.ids.Perm nc.ids)
    (hst : nc.ids ≠ []) (htm : nc.time ≠ []) :
    fresh env fs = (some (fileOf (allReadings Nc.rsds nc ncs) (allReadings Nc.flag nc ncs) (positions nc)), none) := by
  obtain ⟨ps, hps, hf⟩ := map_parse hread hc
  have h0 : fresh env fs = exec none (convertLoop (fun fn => (env.read fs fn).bind parseFile) 0 files) := by
    unfold fresh datasetToH5
    rw [hls, hfiles]
    simp
  cases hf with
  | cons hp0 hrest =>
    rename_i p ps
    have hall : ∀ x ∈ nc :: ncs, x.ids.Nodup ∧ nc.ids.Perm x.ids := by
      intro x hx
      rcases List.mem_cons.1 hx with rfl | hx
      · exact ⟨hnd, List.Perm.refl _⟩
      · exact ⟨(hids x hx).nodup_iff.2 hnd, (hids x hx).symm⟩
    have hcol : ∀ p' ∈ ps, (nc.ids.map Lab.station).Perm p'.data.cols ∧ p'.data.cols.Nodup ∧ (nc.ids.map Lab.station).Perm p'.flag.cols ∧ p'.flag.cols.Nodup := by
      intro p' hp'
      obtain ⟨x, hx, h1, h2, _⟩ : ∃ x ∈ ncs, p'.data = frameOf x.time x.ids x.rsds ∧ p'.flag = frameOf x.time x.ids x.flag ∧ p'.latlon = positions x := by
        clear hps h0 hc hread hids hall
        induction hrest with
        | nil => simp at hp'
        | cons hab _ ih =>
          rcases List.mem_cons.1 hp' with rfl | hp'
          · exact ⟨_, List.mem_cons_self, hab⟩
          · obtain ⟨x, hx, h⟩ := ih hp'
            exact ⟨x, List.mem_cons_of_mem _ hx, h⟩
      have := hall x (List.mem_cons_of_mem _ hx)
      rw [h1, h2]
      exact ⟨station_perm this.2, station_nodup this.1, station_perm this.2, station_nodup this.1⟩
    rw [h0]
    cases files with
    | nil => simp at hread
    | cons fn files =>
      simp only [List.map_cons, List.cons.injEq] at hps
      simp only [convertLoop, hps.1, if_true]
      have h1 : (Key.data = Key.latlon) = False := by simp
      have h2 : (Key.flag = Key.data) = False := by simp
      have h3 : (Key.flag = Key.latlon) = False := by simp
      have hz : ∀ f : Nc → List (List (Option ℝ)), (f nc).length = nc.time.length → (frameOf nc.time nc.ids (f nc)).rows ≠ [] ∧
          (frameOf nc.time nc.ids (f nc)).cols ≠ [] := by
        intro f hl
        refine ⟨?_, by simpa [frameOf] using hst⟩
        intro h
        have := congrArg List.length h
        simp only [frameOf, List.length_zip, hl, min_self, List.length_nil] at this
        exact htm (List.length_eq_zero_iff.1 this)
      have hz1 := hz Nc.rsds (hc nc List.mem_cons_self).2.2.1
      have hz2 := hz Nc.flag (hc nc List.mem_cons_self).2.2.2.1
      rw [← hp0.1] at hz1
      rw [← hp0.2.1] at hz2
      simp only [List.cons_append, List.nil_append, exec, HAct.apply, Option.elim_none, Option.elim_some, h1, h2, h3, if_false, hz1.1, hz1.2, hz2.1, hz2.2, or_self]
      have hcd : p.data.cols = nc.ids.map Lab.station := by rw [hp0.1]; rfl
      have hcf : p.flag.cols = nc.ids.map Lab.station := by rw [hp0.2.1]; rfl
      rw [exec_loop_perm _ files ps hps.2 (nc.ids.map Lab.station) (fun q hq => ⟨(hcol q hq).1, (hcol q hq).2.1⟩) (fun q hq => ⟨(hcol q hq).2.2.1, (hcol q hq).2.2.2⟩)
        1 (by omega) _ p.data.rows p.flag.rows (by simp [← hcd]) (by simp [← hcf]) (by simpa using hst)]
      simp only [Prod.mk.injEq, and_true]
      have hcons := hc nc List.mem_cons_self
      have r1 : p.data.rows = readings nc.ids Nc.rsds nc := by
        rw [← frameOf_rows hnd (List.Perm.refl _) Nc.rsds hcons.2.2.1 hcons.2.2.2.2.1, hp0.1]
        simp [rowsFor, frameOf]
      have r2 : p.flag.rows = readings nc.ids Nc.flag nc := by
        rw [← frameOf_rows hnd (List.Perm.refl _) Nc.flag hcons.2.2.2.1 hcons.2.2.2.2.2, hp0.2.1]
        simp [rowsFor, frameOf]
      have s1 : (ps.flatMap fun p : Parsed Lab HRow => rowsFor (nc.ids.map Lab.station) p.data) = ncs.flatMap (readings nc.ids Nc.rsds) := by
        refine (flatMap_forall₂ hrest fun x hx p' _ hR => ?_).symm
        have hx' := hc x (List.mem_cons_of_mem _ hx)
        have hn := hall x (List.mem_cons_of_mem _ hx)
        rw [hR.1, frameOf_rows hn.1 hn.2 Nc.rsds hx'.2.2.1 hx'.2.2.2.2.1]
      have s2 : (ps.flatMap fun p : Parsed Lab HRow => rowsFor (nc.ids.map Lab.station) p.flag) = ncs.flatMap (readings nc.ids Nc.flag) := by
        refine (flatMap_forall₂ hrest fun x hx p' _ hR => ?_).symm
        have hx' := hc x (List.mem_cons_of_mem _ hx)
        have hn := hall x (List.mem_cons_of_mem _ hx)
        rw [hR.2.1, frameOf_rows hn.1 hn.2 Nc.flag hx'.2.2.2.1 hx'.2.2.2.2.2]
      rw [s1, s2, r1, r2]
      congr 1
      funext q
      cases q <;> simp [fileOf, allReadings, hp0.2.2]

end SST.HopeMain
