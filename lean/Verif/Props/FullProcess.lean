import Verif.Proofs.FullProcess
import Verif.Props.Reassign

/-!
# Properties C170-C176: the complete reassignment procedure of the demonstrations

Specifications: `Spec/FullProcess.lean`, `Spec/Reassign.lean`, `Spec/Assign.lean`, `Spec/Remap.lean`.
-/

namespace SST.Props.FullProcess
open SST SST.Field SST.Spec SST.Spatial

section
variable {ι : Type} [LinearOrder ι]

/-! ## C170 -/

/-- C170: the loop ends after at most ten rounds, whatever is predicted; it ends when the mapping just found occurred before, or after
the tenth round, and all mappings before the last are different. -/
theorem C170_halts (lsa : LSA) (nan : ℝ) (predict : Predictor ι) (inv : ι → String) (f : Frame ι String ℝ) :
    (∀ k, procLoop lsa nan predict inv f (10 + k) (procInit f) = procLoop lsa nan predict inv f 10 (procInit f)) ∧
    procLoop lsa nan predict inv f 10 (procInit f) ≠ .ok none ∧
    ∀ st, procLoop lsa nan predict inv f 10 (procInit f) = .ok (some st) →
      ∃ earlier last, st.remaps = earlier ++ [last] ∧ earlier.Nodup ∧ earlier.length ≤ 10 ∧
        (last ∈ earlier ∨ earlier.length = 10) ∧ st.layouts.length = st.remaps.length := by
  have hne : procLoop lsa nan predict inv f 10 (procInit f) ≠ .ok none :=
    procLoop_never_none 10 _ (by simp [procInit]) (by norm_num)
  refine ⟨fun k => procLoop_mono 10 _ k hne, hne, ?_⟩
  intro st hst
  refine procLoop_invariant (I := fun s => s.remaps.Nodup ∧ s.layouts.length = s.remaps.length ∧ s.remaps.length ≤ 10)
    (fun st => ∃ earlier last, st.remaps = earlier ++ [last] ∧ earlier.Nodup ∧ earlier.length ≤ 10 ∧
      (last ∈ earlier ∨ earlier.length = 10) ∧ st.layouts.length = st.remaps.length) ?_ 10 _ _ ?_ hst
  · rintro s r ⟨h1, h2, h3⟩ hr
    obtain ⟨q, new, upd, -, -, -, rfl⟩ := procStep_ok hr
    obtain ⟨e1, e2, -, e4⟩ := procUpdate_layouts s new upd
    constructor
    · intro hw
      have hnot : ¬ (new ∈ s.remaps ∨ 10 ≤ s.layouts.length) := by
        intro hc
        rw [e4.2 hc] at hw; cases hw
      push Not at hnot
      refine ⟨?_, ?_, ?_⟩
      · rw [e2, List.nodup_append]
        exact ⟨h1, by simp, by intro a ha b hb; simp only [List.mem_singleton] at hb; rintro rfl; exact hnot.1 (hb ▸ ha)⟩
      · rw [e1, e2]; simp [h2]
      · rw [e2]; simp; omega
    · intro hw
      refine ⟨s.remaps, new, e2, h1, h3, ?_, by rw [e1, e2]; simp [h2]⟩
      rcases e4.1 hw with h | h
      · exact Or.inl h
      · right; omega
  · simp [procInit]

/-! ## C171 -/

/-- What the loop keeps true. -/
private def Sound (inv : ι → String) (f : Frame ι String ℝ) (s : ProcState ι) : Prop :=
  WithinInverters inv f.index s.remap ∧ LayoutOf f s.remap s.layout ∧
    (∀ r ∈ s.remaps, WithinInverters inv f.index r) ∧ List.Forall₂ (LayoutOf f) s.remaps s.layouts

private theorem self_bij (inv : ι → String) (f : Frame ι String ℝ) :
    WithinInverters inv f.index (f.rows.map fun r => (r.1, r.1)) := by
  refine ⟨⟨?_, ?_⟩, ?_⟩
  · simp [Frame.index, Function.comp_def]
  · simp [Frame.index, Function.comp_def]
  · intro p hp
    obtain ⟨r, -, rfl⟩ := List.mem_map.1 hp
    rfl

private theorem self_layout (f : Frame ι String ℝ) : LayoutOf f (f.rows.map fun r => (r.1, r.1)) f := by
  refine ⟨rfl, rfl, ?_⟩
  intro p hp
  obtain ⟨r, -, rfl⟩ := List.mem_map.1 hp
  rfl

private theorem sound_init (inv : ι → String) (f : Frame ι String ℝ) : Sound inv f (procInit f) := by
  refine ⟨self_bij inv f, self_layout f, ?_, ?_⟩
  · intro r hr
    simp only [procInit, List.mem_singleton] at hr
    rw [hr]; exact self_bij inv f
  · exact List.Forall₂.cons (self_layout f) List.Forall₂.nil

/-- A predictor that answers for every combiner in every layout of the plant. -/
def Answers (predict : Predictor ι) (f : Frame ι String ℝ) : Prop :=
  ∀ f' : Frame ι String ℝ, f'.index = f.index → f'.cols = f.cols → ∀ l ∈ f.index, ∃ r, predict f' l = .ok r

private theorem step_sound (lsa : LSA) (hl : IsLSA lsa) (nan : ℝ) (predict : Predictor ι) (inv : ι → String) (f : Frame ι String ℝ)
    (hn : f.index.Nodup) (hcols : f.cols = ["E", "N"]) (hap : NamesApart inv f.index) (hp : Answers predict f) (s : ProcState ι)
    (hs : Sound inv f s) : ∃ new upd, procStep lsa nan predict inv f s = .ok (procUpdate s new upd) ∧
      (new.map Prod.fst).Pairwise (· < ·) ∧ Sound inv f (procUpdate s new upd).1 := by
  obtain ⟨h1, ⟨h2a, h2b, h2c⟩, h3, h4⟩ := hs
  have hp' := hp s.layout h2a h2b
  have hchoose : ∀ l, ∃ row : PredRow, l ∈ f.index → predict s.layout l = .ok row := by
    intro l
    by_cases hm : l ∈ f.index
    · obtain ⟨r, hr⟩ := hp' l hm
      exact ⟨r, fun _ => hr⟩
    · exact ⟨⟨none, none, []⟩, fun h => absurd h hm⟩
  choose row hrow using hchoose
  obtain ⟨g, e1, -, e3⟩ := roundRemap_ok lsa hl nan predict inv s.layout (by rw [h2a]; exact hn) (by rw [h2b]; exact hcols)
    (by rw [h2a]; exact hap) row (by rw [h2a]; exact fun l hl' => hrow l hl')
  rw [h2a] at e1 e3
  obtain ⟨new, c1, c2, c3, c4⟩ := cascade_bij hn h1.1 e3.1
  obtain ⟨upd, u1, u2⟩ := remap_layout nan f hn hcols new c3
  have hnew : WithinInverters inv f.index new := by
    refine ⟨c3, ?_⟩
    intro p hp1
    obtain ⟨b, hb1, hb2⟩ := (c4 p).1 hp1
    exact (e3.2 _ hb1).trans (h1.2 _ hb2)
  refine ⟨new, upd, ?_, c2, ?_⟩
  · unfold procStep
    rw [e1]
    simp only [bind, Except.bind, c1, u1, Except.map]
  · have hr : ∀ r ∈ s.remaps ++ [new], WithinInverters inv f.index r := by
      intro r hr
      rcases List.mem_append.1 hr with h | h
      · exact h3 r h
      · rw [List.mem_singleton.1 h]; exact hnew
    have hl2 : List.Forall₂ (LayoutOf f) (s.remaps ++ [new]) (s.layouts ++ [upd]) :=
      List.rel_append h4 (List.Forall₂.cons u2 List.Forall₂.nil)
    unfold procUpdate
    split_ifs
    · exact ⟨h1, ⟨h2a, h2b, h2c⟩, hr, hl2⟩
    · exact ⟨hnew, u2, hr, hl2⟩

/-- C171 (partial: the names of the inverters must not contain each other): the procedure never fails, and the reported mapping and
every mapping and layout recorded on the way assigns the combiners one to one to places of their own inverter. -/
theorem C171_within_inverters_partial (lsa : LSA) (hl : IsLSA lsa) (nan : ℝ) (predict : Predictor ι) (inv : ι → String)
    (f : Frame ι String ℝ) (hn : f.index.Nodup) (hcols : f.cols = ["E", "N"]) (hap : NamesApart inv f.index) (hp : Answers predict f) :
    ∃ st, procLoop lsa nan predict inv f 10 (procInit f) = .ok (some st) ∧ WithinInverters inv f.index st.remap ∧
      LayoutOf f st.remap st.layout ∧ (∀ r ∈ st.remaps, WithinInverters inv f.index r) ∧
      List.Forall₂ (LayoutOf f) st.remaps st.layouts := by
  have hstep := step_sound lsa hl nan predict inv f hn hcols hap hp
  obtain ⟨st, hst⟩ := procLoop_total (lsa := lsa) (nan := nan) (predict := predict) (inv := inv) (f := f) (Sound inv f)
    (fun s hs => by
      obtain ⟨new, upd, e1, -, e3⟩ := hstep s hs
      exact ⟨_, e1, fun _ => e3⟩) 10 (procInit f) (sound_init inv f) (by simp [procInit]) (by norm_num)
  refine ⟨st, hst, procLoop_invariant (Sound inv f) (Sound inv f) ?_ 10 _ _ (sound_init inv f) hst⟩
  intro s r hs hr
  obtain ⟨new, upd, e1, -, e3⟩ := hstep s hs
  rw [e1] at hr
  cases hr
  exact ⟨fun _ => e3, fun _ => e3⟩

/-! ## C172 -/

private theorem changed_iff {new old : List (ι × ι)} (h1 : (new.map Prod.fst).Nodup) (h : new.map Prod.fst = old.map Prod.fst) (k : ι) :
    k ∈ changedIds new old ↔ k ∈ old.map Prod.fst ∧ lastTarget new k ≠ lastTarget old k := by
  have h2 : (old.map Prod.fst).Nodup := h ▸ h1
  have key : ∀ (new old : List (ι × ι)), new.map Prod.fst = old.map Prod.fst → ∀ p : (ι × ι) × (ι × ι), p ∈ new.zip old → p.1.1 = p.2.1 := by
    intro new
    induction new with
    | nil => intro old _ p hp; simp at hp
    | cons a l ih =>
      intro old ho p hp
      cases old with
      | nil => simp at hp
      | cons b m =>
        simp only [List.map_cons, List.cons.injEq] at ho
        rcases List.mem_cons.1 hp with rfl | hp
        · exact ho.1
        · exact ih m ho.2 p hp
  have hlen : new.length = old.length := by simpa using congrArg List.length h
  constructor
  · intro hk
    unfold changedIds at hk
    obtain ⟨p, hp, rfl⟩ := List.mem_map.1 hk
    obtain ⟨hp, hne⟩ := List.mem_filter.1 hp
    have hne : p.1 ≠ p.2 := by simpa using hne
    have e := key _ _ h p hp
    have hm := List.of_mem_zip (show (p.1, p.2) ∈ new.zip old from hp)
    refine ⟨by rw [← h]; exact List.mem_map_of_mem hm.1, ?_⟩
    rw [lastTarget_of_mem h1 (show (p.1.1, p.1.2) ∈ new from hm.1), e, lastTarget_of_mem h2 (show (p.2.1, p.2.2) ∈ old from hm.2)]
    intro hc
    exact hne (Prod.ext e (Option.some.inj hc))
  · rintro ⟨hk, hne⟩
    obtain ⟨i, hi, he⟩ := List.mem_iff_getElem.1 hk
    have hi1 : i < old.length := by simpa using hi
    have hi2 : i < new.length := by omega
    have e1 : (old[i]).1 = k := by simpa using he
    have e2 : (new[i]).1 = k := by
      have : (new.map Prod.fst)[i]'(by simpa using hi2) = (old.map Prod.fst)[i] := by simp only [h]
      simpa [e1] using this
    unfold changedIds
    refine List.mem_map.2 ⟨(new[i], old[i]), List.mem_filter.2 ⟨?_, ?_⟩, e2⟩
    · have hz : i < (new.zip old).length := by simp; omega
      have : (new.zip old)[i] = (new[i], old[i]) := by simp
      rw [← this]; exact List.getElem_mem hz
    · simp only [ne_eq, decide_eq_true_eq]
      intro hc
      apply hne
      rw [lastTarget_of_mem h1 (show (k, (new[i]).2) ∈ new by rw [← e2]; exact List.getElem_mem hi2),
        lastTarget_of_mem h2 (show (k, (old[i]).2) ∈ old by rw [← e1]; exact List.getElem_mem hi1), hc]

private theorem changed_self (r : List (ι × ι)) : changedIds r r = [] := by
  unfold changedIds
  rw [List.map_eq_nil_iff, List.filter_eq_nil_iff]
  intro p hp
  have : ∀ (r : List (ι × ι)) (p : (ι × ι) × (ι × ι)), p ∈ r.zip r → p.1 = p.2 := by
    intro r
    induction r with
    | nil => intro p hp; simp at hp
    | cons a l ih =>
      intro p hp
      rcases List.mem_cons.1 hp with rfl | hp
      · rfl
      · exact ih p hp
  simp [this r p hp]

private theorem pairwise_lt_ext {a b : List ι} (ha : a.Pairwise (· < ·)) (hb : b.Pairwise (· < ·)) (h : a.Perm b) : a = b :=
  List.Perm.eq_of_pairwise (fun x y _ _ h1 h2 => absurd h2 (not_lt.2 h1.le)) ha hb h

/-- C172 (partial: the reported mapping is the last but one of the recorded ones): `changed` names exactly the combiners whose place
in the reported mapping and in the last recorded mapping differ; if it is empty the reported mapping is the last one, and the
procedure has confirmed it. -/
theorem C172_changed_partial (lsa : LSA) (hl : IsLSA lsa) (nan : ℝ) (predict : Predictor ι) (inv : ι → String)
    (f : Frame ι String ℝ) (hn : f.index.Nodup) (hcols : f.cols = ["E", "N"]) (hap : NamesApart inv f.index) (hp : Answers predict f) :
    ∃ st earlier last, procLoop lsa nan predict inv f 10 (procInit f) = .ok (some st) ∧
      st.remaps = earlier ++ [st.remap, last] ∧
      (∀ k, k ∈ st.changed ↔ k ∈ f.index ∧ lastTarget last k ≠ lastTarget st.remap k) ∧
      (st.changed = [] → st.remap = last) := by
  have hstep := step_sound lsa hl nan predict inv f hn hcols hap hp
  obtain ⟨st, hst, -⟩ := C171_within_inverters_partial lsa hl nan predict inv f hn hcols hap hp
  let I : ProcState ι → Prop := fun s => Sound inv f s ∧ (∃ e, s.remaps = e ++ [s.remap]) ∧
    (s.remaps = [s.remap] ∨ (s.remap.map Prod.fst).Pairwise (· < ·))
  have hE : ∃ earlier last, st.remaps = earlier ++ [st.remap, last] ∧
      (∀ k, k ∈ st.changed ↔ k ∈ f.index ∧ lastTarget last k ≠ lastTarget st.remap k) ∧ (st.changed = [] → st.remap = last) := by
    refine procLoop_invariant I (fun st => ∃ earlier last, st.remaps = earlier ++ [st.remap, last] ∧
      (∀ k, k ∈ st.changed ↔ k ∈ f.index ∧ lastTarget last k ≠ lastTarget st.remap k) ∧ (st.changed = [] → st.remap = last)) ?_ 10 _ _ ⟨sound_init inv f, ⟨[], rfl⟩, Or.inl rfl⟩ hst
    rintro s r ⟨hs, ⟨e, he⟩, hor⟩ hr
    obtain ⟨new, upd, e1, e2, e3⟩ := hstep s hs
    rw [e1] at hr
    cases hr
    constructor
    · intro hw
      have hc : ¬ (new ∈ s.remaps ∨ 10 ≤ s.layouts.length) := by
        intro hc
        rw [(procUpdate_layouts s new upd).2.2.2.2 hc] at hw; cases hw
      refine ⟨e3, ?_⟩
      unfold procUpdate
      rw [if_neg hc]
      exact ⟨⟨s.remaps, rfl⟩, Or.inr e2⟩
    · intro hw
      have hc := (procUpdate_layouts s new upd).2.2.2.1 hw
      have hnew : WithinInverters inv f.index new := e3.2.2.1 new (by
        rw [(procUpdate_layouts s new upd).2.1]; simp)
      have hlen : s.layouts.length = s.remaps.length := hs.2.2.2.length_eq.symm
      have halign : new.map Prod.fst = s.remap.map Prod.fst := by
        rcases hor with h | h
        · rcases hc with h' | h'
          · rw [h, List.mem_singleton] at h'; rw [h']
          · rw [hlen, h] at h'; simp at h'
        · exact pairwise_lt_ext e2 h (hnew.1.1.trans hs.1.1.1.symm)
      refine ⟨e, new, ?_, ?_, ?_⟩
      · rw [(procUpdate_layouts s new upd).2.1, he]
        unfold procUpdate
        rw [if_pos hc]
        simp
      · intro k
        rw [(procUpdate_layouts s new upd).2.2.1, changed_iff (e2.imp ne_of_lt) halign, hs.1.1.1.mem_iff]
        unfold procUpdate
        rw [if_pos hc]
      · intro hch
        rw [(procUpdate_layouts s new upd).2.2.1] at hch
        unfold procUpdate
        rw [if_pos hc]
        show s.remap = new
        have hn1 : (new.map Prod.fst).Nodup := e2.imp ne_of_lt
        have hno : ∀ k, k ∉ changedIds new s.remap := by rw [hch]; simp
        refine (assoc_ext (d := new) (e := s.remap) halign hn1 ?_).symm
        intro k hk
        have h2 : lastTarget new k = lastTarget s.remap k := by
          by_contra hne
          exact hno k ((changed_iff hn1 halign k).2 ⟨halign ▸ hk, hne⟩)
        obtain ⟨v, hv⟩ := dictGet?_isSome hk
        have h3 := lastTarget_of_mem hn1 (dictGet?_mem hv)
        rw [h2] at h3
        rw [hv, dictGet?_of_mem (halign ▸ hn1) (lastTarget_mem h3)]
  obtain ⟨earlier, last, h1, h2, h3⟩ := hE
  exact ⟨st, earlier, last, hst, h1, h2, h3⟩

/-! ## C173 -/

private theorem bij_sub {inv : ι → String} {ids : List ι} {r : List (ι × ι)} (hr : WithinInverters inv ids r)
    (name : String) : IsBijection (r.filter fun p => inv p.1 = name) (ids.filter fun l => inv l = name) := by
  have e2 : (r.filter fun p => inv p.1 = name) = r.filter fun p => inv p.2 = name := by
    apply List.filter_congr
    intro p hp
    rw [hr.2 p hp]
  constructor
  · have := (hr.1.1.filter fun l => inv l = name)
    rwa [List.filter_map] at this
  · rw [e2]
    have := (hr.1.2.filter fun l => inv l = name)
    rwa [List.filter_map] at this

/-- The round that turns the mapping `r` into the mapping `truth`. -/
private theorem quotient {inv : ι → String} {ids : List ι} (hn : ids.Nodup) {r truth : List (ι × ι)} (hr : WithinInverters inv ids r)
    (ht : WithinInverters inv ids truth) : ∃ q, WithinInverters inv ids q ∧
      ∀ a b, (a, b) ∈ q ↔ ∃ t, (a, t) ∈ truth ∧ (b, t) ∈ r := by
  have hswap : IsBijection (r.map Prod.swap) ids := by
    refine ⟨?_, ?_⟩
    · simpa [Function.comp_def] using hr.1.2
    · simpa [Function.comp_def] using hr.1.1
  obtain ⟨q, -, -, h3, h4⟩ := cascade_bij hn hswap ht.1
  have h5 : ∀ a b, (a, b) ∈ q ↔ ∃ t, (a, t) ∈ truth ∧ (b, t) ∈ r := by
    intro a b
    rw [h4]
    constructor
    · rintro ⟨t, h1, h2⟩
      obtain ⟨p, hp, e⟩ := List.mem_map.1 h2
      refine ⟨t, h1, ?_⟩
      cases p
      simp only [Prod.swap_prod_mk, Prod.mk.injEq] at e
      rw [← e.1, ← e.2]; exact hp
    · rintro ⟨t, h1, h2⟩
      exact ⟨t, h1, List.mem_map.2 ⟨(b, t), h2, rfl⟩⟩
  refine ⟨q, ⟨h3, ?_⟩, h5⟩
  rintro ⟨a, b⟩ hp
  obtain ⟨t, h1, h2⟩ := (h5 a b).1 hp
  exact (ht.2 _ h1).trans (hr.2 _ h2).symm

/-- Predictions point to the true places when the combiners are laid out by the mapping `r`: nearer than to any other place of the
inverter; a missing prediction only where the layout is right. -/
def PointsTo (predict : Predictor ι) (inv : ι → String) (f : Frame ι String ℝ) (truth r : List (ι × ι)) : Prop :=
  ∀ f', LayoutOf f r f' → ∀ l ∈ f.index, ∃ p, predict f' l = .ok p ∧
    (p.hasNaN = true → ∃ t, (l, t) ∈ truth ∧ (l, t) ∈ r) ∧
    (p.hasNaN = false → ∀ t, (l, t) ∈ truth → ∀ k ∈ f.index, inv k = inv l → k ≠ t →
      pdist (p.e.getD 0, p.n.getD 0) (posOf (coords "E" "N" f) t) < pdist (p.e.getD 0, p.n.getD 0) (posOf (coords "E" "N" f) k))

private theorem step_found (lsa : LSA) (hl : IsLSA lsa) (nan : ℝ) (predict : Predictor ι) (inv : ι → String) (f : Frame ι String ℝ)
    (hn : f.index.Nodup) (hcols : f.cols = ["E", "N"]) (hap : NamesApart inv f.index) (truth : List (ι × ι))
    (ht : WithinInverters inv f.index truth) (s : ProcState ι) (hs : Sound inv f s) (hp : PointsTo predict inv f truth s.remap) :
    ∃ new upd, procStep lsa nan predict inv f s = .ok (procUpdate s new upd) ∧
      (new.map Prod.fst).Pairwise (· < ·) ∧ new.Perm truth ∧ LayoutOf f new upd ∧ Sound inv f (procUpdate s new upd).1 := by
  obtain ⟨h1, ⟨h2a, h2b, h2c⟩, h3, h4⟩ := hs
  have hp' := hp s.layout ⟨h2a, h2b, h2c⟩
  have hchoose : ∀ l, ∃ p : PredRow, l ∈ f.index → predict s.layout l = .ok p ∧
    (p.hasNaN = true → ∃ t, (l, t) ∈ truth ∧ (l, t) ∈ s.remap) ∧
    (p.hasNaN = false → ∀ t, (l, t) ∈ truth → ∀ k ∈ f.index, inv k = inv l → k ≠ t →
      pdist (p.e.getD 0, p.n.getD 0) (posOf (coords "E" "N" f) t) < pdist (p.e.getD 0, p.n.getD 0) (posOf (coords "E" "N" f) k)) := by
    intro l
    by_cases hm : l ∈ f.index
    · obtain ⟨r, hr⟩ := hp' l hm
      exact ⟨r, fun _ => hr⟩
    · exact ⟨⟨none, none, []⟩, fun h => absurd h hm⟩
  choose row hrow using hchoose
  have hn' : s.layout.index.Nodup := by rw [h2a]; exact hn
  obtain ⟨g, e1, e2, e3⟩ := roundRemap_ok lsa hl nan predict inv s.layout hn' (by rw [h2b]; exact hcols)
    (by rw [h2a]; exact hap) row (by rw [h2a]; exact fun l hl' => (hrow l hl').1)
  rw [h2a] at e1 e2 e3
  obtain ⟨q, q1, q2⟩ := quotient hn h1 ht
  have htn : (truth.map Prod.fst).Nodup := ht.1.1.nodup_iff.2 hn
  have htn2 : (truth.map Prod.snd).Nodup := ht.1.2.nodup_iff.2 hn
  have hrn1 : (s.remap.map Prod.fst).Nodup := h1.1.1.nodup_iff.2 hn
  have hrn2 : (s.remap.map Prod.snd).Nodup := h1.1.2.nodup_iff.2 hn
  have huniq : ∀ {l a b : ι}, (l, a) ∈ s.remap → (l, b) ∈ s.remap → a = b := by
    intro l a b ha hb
    have := lastTarget_of_mem hrn1 ha
    rw [lastTarget_of_mem hrn1 hb] at this
    exact (Option.some.inj this).symm
  -- every group gets its part of `q`
  have hg : ∀ name ∈ invIds inv f.index, (g name).Perm (q.filter fun p => inv p.1 = name) := by
    intro name hname
    obtain ⟨a1, -⟩ := e2 name hname
    have hsub := filter_sub_nodup hn (fun l => decide (inv l = name))
    obtain ⟨sub, s1, s2, s3, s4⟩ := locFrame_sub s.layout hn' (f.index.filter fun l => inv l = name)
      (by rw [h2a]; exact hsub.1) hsub.2
    unfold assignGroup at a1
    rw [s1, locPreds_map hn hsub.1] at a1
    have hlab : ((f.index.filter fun l => inv l = name).map fun l => (l, row l)).map Prod.fst = sub.index := by
      rw [s3]; simp [Function.comp_def]
    have hpos : ∀ l ∈ f.index.filter (fun l => inv l = name),
        posOf (predCoords ((f.index.filter fun l => inv l = name).map fun l => (l, row l))) l = ((row l).e.getD 0, (row l).n.getD 0) := by
      intro l hl'
      refine posOf_mem (p := (l, ((row l).e.getD 0, (row l).n.getD 0))) ?_ ?_
      · simpa [predCoords, Function.comp_def] using hsub.2
      · simp only [predCoords, List.map_map, List.mem_map, Function.comp_apply]
        exact ⟨l, hl', rfl⟩
    have hqb := bij_sub q1 name
    obtain ⟨remap, out, c1, c2, -⟩ := Reassign.C168_nearest lsa hl nan sub (by rw [s3]; exact hsub.2) "E" "N" [] (by rw [s2, h2b, hcols]) _ hlab
      (q.filter fun p => inv p.1 = name) (by rw [s3]; exact hqb)
      (by
        intro p hp1 hp2
        obtain ⟨l, hl', rfl⟩ := List.mem_map.1 hp1
        obtain ⟨t, t1, t2⟩ := (hrow l (hsub.1 l hl')).2.1 hp2
        refine List.mem_filter.2 ⟨(q2 l l).2 ⟨t, t1, t2⟩, ?_⟩
        exact (List.mem_filter.1 hl').2)
      (by
        intro p hp1 hp2 b hb k hk hkb
        obtain ⟨l, hl', rfl⟩ := List.mem_map.1 hp1
        rw [s3] at hk
        obtain ⟨t, t1, t2⟩ := (q2 l b).1 (List.mem_filter.1 hb).1
        have hbm : b ∈ f.index.filter fun l => inv l = name := hqb.2.mem_iff.1 (List.mem_map.2 ⟨(l, b), hb, rfl⟩)
        rw [hpos l hl', s4 b hbm, s4 k hk]
        obtain ⟨⟨k1, kt⟩, hk1, rfl⟩ := List.mem_map.1 (h1.1.1.mem_iff.2 (hsub.1 k hk))
        have hb2 := h2c _ t2
        have hk2 := h2c _ hk1
        change posOf (tablePts s.layout) _ = _ at hb2 hk2
        simp only at hb2 hk2 hk hkb ⊢
        rw [hb2, hk2]
        have hktm : kt ∈ f.index := h1.1.2.mem_iff.1 (List.mem_map.2 ⟨_, hk1, rfl⟩)
        refine (hrow l (hsub.1 l hl')).2.2 hp2 t t1 kt hktm ?_ ?_
        · have := h1.2 _ hk1
          simp only at this
          rw [← this, of_decide_eq_true (List.mem_filter.1 hk).2, of_decide_eq_true (List.mem_filter.1 hl').2]
        · rintro rfl
          apply hkb
          have h5 : (kt, k1) ∈ s.remap.map Prod.swap := List.mem_map.2 ⟨(k1, kt), hk1, rfl⟩
          have h6 : (kt, b) ∈ s.remap.map Prod.swap := List.mem_map.2 ⟨(b, kt), t2, rfl⟩
          have hnd : ((s.remap.map Prod.swap).map Prod.fst).Nodup := by simpa [Function.comp_def] using hrn2
          have := lastTarget_of_mem hnd h5
          rw [lastTarget_of_mem hnd h6] at this
          exact (Option.some.inj this).symm)
    rw [show (Except.ok sub >>= fun sub => Except.map Prod.fst (assignPositions lsa nan sub
      ((f.index.filter fun l => inv l = name).map fun l => (l, row l)))) = Except.map Prod.fst (assignPositions lsa nan sub
      ((f.index.filter fun l => inv l = name).map fun l => (l, row l))) from rfl, c1] at a1
    simp only [Except.map, Except.ok.injEq] at a1
    rw [← a1]; exact c2
  -- hence the whole round is `q`
  have hround : ∀ a b, (a, b) ∈ ((invIds inv f.index).map g).flatten ↔ (a, b) ∈ q := by
    intro a b
    constructor
    · intro h
      obtain ⟨l, hl', hm⟩ := List.mem_flatten.1 h
      obtain ⟨name, hname, rfl⟩ := List.mem_map.1 hl'
      exact (List.mem_filter.1 ((hg name hname).mem_iff.1 hm)).1
    · intro h
      have ha : a ∈ f.index := q1.1.1.mem_iff.1 (List.mem_map.2 ⟨_, h, rfl⟩)
      have hname : inv a ∈ invIds inv f.index := mem_invIds.2 ⟨a, ha, rfl⟩
      refine List.mem_flatten.2 ⟨g (inv a), List.mem_map.2 ⟨_, hname, rfl⟩, ?_⟩
      exact (hg _ hname).mem_iff.2 (List.mem_filter.2 ⟨h, by simp⟩)
  obtain ⟨new, c1, c2, c3, c4⟩ := cascade_bij hn h1.1 e3.1
  obtain ⟨upd, u1, u2⟩ := remap_layout nan f hn hcols new c3
  have hnt : new.Perm truth := by
    rw [List.perm_ext_iff_of_nodup (List.Nodup.of_map Prod.fst (c2.imp ne_of_lt)) (List.Nodup.of_map Prod.fst htn)]
    rintro ⟨a, v⟩
    rw [c4]
    constructor
    · rintro ⟨b, hb1, hb2⟩
      obtain ⟨t, t1, t2⟩ := (q2 a b).1 ((hround a b).1 hb1)
      have h7 : v = t := huniq hb2 t2
      rw [h7]; exact t1
    · intro h
      obtain ⟨⟨b, v'⟩, hb, e⟩ := List.mem_map.1 (h1.1.2.mem_iff.2 (ht.1.2.mem_iff.1 (List.mem_map.2 ⟨_, h, rfl⟩)))
      simp only at e
      subst e
      exact ⟨b, (hround a b).2 ((q2 a b).2 ⟨_, h, hb⟩), hb⟩
  have hnew : WithinInverters inv f.index new := by
    refine ⟨c3, ?_⟩
    intro p hp1
    exact ht.2 p (hnt.mem_iff.1 hp1)
  refine ⟨new, upd, ?_, c2, hnt, u2, ?_⟩
  · unfold procStep
    rw [e1]
    simp only [bind, Except.bind, c1, u1, Except.map]
  · have hr : ∀ r ∈ s.remaps ++ [new], WithinInverters inv f.index r := by
      intro r hr
      rcases List.mem_append.1 hr with h | h
      · exact h3 r h
      · rw [List.mem_singleton.1 h]; exact hnew
    have hl2 : List.Forall₂ (LayoutOf f) (s.remaps ++ [new]) (s.layouts ++ [upd]) :=
      List.rel_append h4 (List.Forall₂.cons u2 List.Forall₂.nil)
    unfold procUpdate
    split_ifs
    · exact ⟨h1, ⟨h2a, h2b, h2c⟩, hr, hl2⟩
    · exact ⟨hnew, u2, hr, hl2⟩

private theorem sorted_perm_eq {a b : List (ι × ι)} (ha : (a.map Prod.fst).Pairwise (· < ·)) (hb : (b.map Prod.fst).Pairwise (· < ·))
    (h : a.Perm b) : a = b := by
  refine sorted_pairs_ext ha hb (fun k => (h.map Prod.fst).mem_iff) ?_
  intro k _
  exact lastTarget_perm h (ha.imp ne_of_lt) k

/-- C173: if the predictions made with the plan and with the true layout point to the true places, the procedure reports the true
mapping and layout, has converged, and needed at most two rounds. -/
theorem C173_found (lsa : LSA) (hl : IsLSA lsa) (nan : ℝ) (predict : Predictor ι) (inv : ι → String) (f : Frame ι String ℝ)
    (hn : f.index.Nodup) (hcols : f.cols = ["E", "N"]) (hap : NamesApart inv f.index) (truth : List (ι × ι))
    (ht : WithinInverters inv f.index truth) (hplan : PointsTo predict inv f truth (f.index.map fun l => (l, l)))
    (htrue : ∀ r, r.Perm truth → PointsTo predict inv f truth r) :
    ∃ st, procLoop lsa nan predict inv f 10 (procInit f) = .ok (some st) ∧ st.remap.Perm truth ∧
      LayoutOf f truth st.layout ∧ st.changed = [] ∧ st.layouts.length ≤ 3 := by
  have hinit : (procInit f).remap = f.index.map fun l => (l, l) := by simp [procInit, Frame.index, Function.comp_def]
  obtain ⟨new, upd, e1, e2, e3, e4, e5⟩ := step_found lsa hl nan predict inv f hn hcols hap truth ht (procInit f) (sound_init inv f)
    (by rw [hinit]; exact hplan)
  have hlay : ∀ {r : List (ι × ι)} {f'}, r.Perm truth → LayoutOf f r f' → LayoutOf f truth f' := by
    rintro r f' h ⟨a, b, c⟩
    exact ⟨a, b, fun p hp => c p (h.mem_iff.2 hp)⟩
  by_cases hc : new ∈ (procInit f).remaps ∨ 10 ≤ (procInit f).layouts.length
  · -- the first round confirms the plan
    have hnew : new = (procInit f).remap := by
      rcases hc with h | h
      · simpa [procInit] using h
      · simp [procInit] at h
    have hw : (procUpdate (procInit f) new upd).2 = false := (procUpdate_layouts _ _ _).2.2.2.2 hc
    refine ⟨(procUpdate (procInit f) new upd).1, ?_, ?_, ?_, ?_, ?_⟩
    · show procLoop lsa nan predict inv f (9 + 1) _ = _
      unfold procLoop
      rw [e1]
      simp only [bind, Except.bind, hw]
      rfl
    · unfold procUpdate
      rw [if_pos hc]
      show (procInit f).remap.Perm truth
      rw [← hnew]; exact e3
    · unfold procUpdate
      rw [if_pos hc]
      show LayoutOf f truth (procInit f).layout
      exact hlay (r := (procInit f).remap) (by rw [← hnew]; exact e3) (self_layout f)
    · rw [(procUpdate_layouts _ _ _).2.2.1, hnew, changed_self]
    · rw [(procUpdate_layouts _ _ _).1]; simp [procInit]
  · have hw : (procUpdate (procInit f) new upd).2 = true := by
      rw [← Bool.not_eq_false]
      exact fun h => hc ((procUpdate_layouts _ _ _).2.2.2.1 h)
    set s1 := (procUpdate (procInit f) new upd).1 with hs1
    have hs1r : s1.remap = new := by rw [hs1]; unfold procUpdate; rw [if_neg hc]
    have hs1l : s1.layout = upd := by rw [hs1]; unfold procUpdate; rw [if_neg hc]
    obtain ⟨new2, upd2, f1, f2, f3, f4, -⟩ := step_found lsa hl nan predict inv f hn hcols hap truth ht s1 e5
      (by rw [hs1r]; exact htrue new e3)
    have hnew2 : new2 = new := sorted_perm_eq f2 e2 (f3.trans e3.symm)
    have hc2 : new2 ∈ s1.remaps ∨ 10 ≤ s1.layouts.length := by
      left
      rw [hnew2, hs1, (procUpdate_layouts _ _ _).2.1]; simp
    have hw2 : (procUpdate s1 new2 upd2).2 = false := (procUpdate_layouts _ _ _).2.2.2.2 hc2
    refine ⟨(procUpdate s1 new2 upd2).1, ?_, ?_, ?_, ?_, ?_⟩
    · show procLoop lsa nan predict inv f (8 + 1 + 1) _ = _
      unfold procLoop
      rw [e1]
      simp only [bind, Except.bind, hw, if_true]
      unfold procLoop
      rw [← hs1, f1]
      simp only [bind, Except.bind, hw2]
      rfl
    · unfold procUpdate
      rw [if_pos hc2]
      show s1.remap.Perm truth
      rw [hs1r]; exact e3
    · unfold procUpdate
      rw [if_pos hc2]
      show LayoutOf f truth s1.layout
      rw [hs1l]; exact hlay e3 e4
    · rw [(procUpdate_layouts _ _ _).2.2.1, hnew2, hs1r, changed_self]
    · rw [(procUpdate_layouts _ _ _).1, hs1, List.length_append, (procUpdate_layouts _ _ _).1]; simp [procInit]

end

end SST.Props.FullProcess
