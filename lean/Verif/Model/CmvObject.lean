import Verif.Model.CmvData
import Verif.Model.CmvTf

/-!
# Model: the class `Flag` with its descriptions and all fields of `WindspeedData`, cmv.py:15-80

`Model/Cmv.lean` has the flags, `Model/CmvData.lean` the fields used elsewhere; here is what a user sees of the two classes: the
members of the enumeration with their numbers, the descriptions, and the dictionary and the text made of a result.
-/

namespace SST.Cmv
open SST SST.Spatial

variable {ι : Type}

/-! ## The enumeration -/

/-- The numbers of the flags, cmv.py:16-27. -/
def Flag.number : Flag → ℕ
  | .good => 0 | .nosignal => 1 | .lowvarS => 2 | .lowccf => 3 | .overcast => 4 | .nolag => 5 | .lowcorr => 6 | .stats => 7
  | .vellimit => 8 | .allbad => 9 | .trend => 10 | .same => 11

/-- The dictionary `DESCS` of the class body, cmv.py:29-41.  In the class body the names are still plain numbers. -/
def descs : List (ℕ × String) :=
  [(0, "good data"),
   (1, "one signal has zero variance, likely bogus"),
   (2, "Low variation ratio in a signal"),
   (3, "Low cloud cover fraction in a signal (i.e. too clear)"),
   (4, "low overall kt in both signals"),
   (5, "no lag computed (infinite velocity)"),
   (6, "low lagging correlation (<0.8)"),
   (8, "Jamaly and Kleissl Low velocity limit"),
   (9, "no good datapoints"),
   (10, "trend"),
   (11, "pair is same site")]

/-- The members of `Flag`: `Enum` turns EVERY name assigned in the class body into a member, also `DESCS`. -/
inductive FlagMember
  | flag (f : Flag) | descs
  deriving DecidableEq

/-- `list(Flag)`, in the order of the class body. -/
def flagMembers : List FlagMember :=
  [.good, .nosignal, .lowvarS, .lowccf, .overcast, .nolag, .lowcorr, .stats, .vellimit, .allbad, .trend, .same].map FlagMember.flag ++ [.descs]

/-- The Python objects met here: members, numbers and the dictionary. -/
inductive FlagVal
  | member (m : FlagMember) | int (n : ℕ) | dict (d : List (ℕ × String))

/-- `member.value`. -/
def FlagMember.value : FlagMember → FlagVal
  | .flag f => .int f.number
  | .descs => .dict Cmv.descs

/-- `v[k]`: members of an enumeration and numbers cannot be subscripted; a member is not equal to any number, so as a key of the
dictionary it is missing. -/
def FlagVal.getItem : FlagVal → FlagVal → Except PyErr String
  | .dict d, .int n => match dictGet? d n with
    | some s => .ok s
    | none => .error .keyError
  | .dict _, .member _ => .error .keyError
  | .dict _, .dict _ => .error .typeError
  | .member _, _ => .error .typeError
  | .int _, _ => .error .typeError

/-! ## The data object -/

/-- All fields of `WindspeedData`, cmv.py:48-58; the outer `none` is `None`, the inner one NaN. -/
structure FullObject (ι : Type) where
  corrRaw : Option (List (Option ℝ))
  pairCoh : Option (List (Option ℝ))
  /-- `method_data` is set (`pcov` of gagne and the stored ratios are not modelled, so that only this is known of gagne) -/
  hasMethodData : Bool
  base : WindspeedData ι

/-- A value of a field. -/
inductive FieldVal (ι : Type)
  | none | floats (l : List (Option ℝ)) | pairs (l : List (ι × ι)) | float (v : Option ℝ) | flags (l : List Flag) | flag (f : Flag)
  | method (d : Option MethodData)

/-- `getattr(self, field, None)`, cmv.py:76. -/
def FullObject.getattr (o : FullObject ι) (field : String) : FieldVal ι :=
  let fl := fun (v : Option (List (Option ℝ))) => v.elim FieldVal.none FieldVal.floats
  let nr := fun (v : Option (Option ℝ)) => v.elim FieldVal.none FieldVal.float
  match field with
  | "corr_raw" => fl o.corrRaw
  | "corr_lag" => fl o.base.corrLag
  | "allpairs" => o.base.allpairs.elim .none .pairs
  | "pair_lag" => fl o.base.pairLag
  | "pair_coh" => fl o.pairCoh
  | "pair_dists" => fl o.base.pairDists
  | "wind_speed" => nr o.base.windSpeed
  | "wind_angle" => nr o.base.windAngle
  | "pair_flag" => o.base.pairFlag.elim .none .flags
  | "flag" => o.base.flag.elim .none .flag
  | "method_data" => if o.hasMethodData then .method o.base.methodData else .none
  | _ => .none

/-- `_fields`, cmv.py:60-72. -/
def objectFields : List String :=
  ["corr_raw", "corr_lag", "allpairs", "pair_lag", "pair_coh", "pair_dists", "wind_speed", "wind_angle", "pair_flag", "flag", "method_data"]

/-- `to_dict`, cmv.py:74-76 (`__repr__`, cmv.py:78-79, is the text of this dictionary). -/
def FullObject.toDict (o : FullObject ι) : List (String × FieldVal ι) := objectFields.map fun f => (f, o.getattr f)

/-- What `extras` holds beside the peak and the mean of the correlation: `zero_corr` and `mean_coh` for the two signals of a pair
(`mean_coh` is only there with backend 'tf', signalproc.py:635-637 and 817-847). -/
abbrev Extras := String → List (Option ℝ) → List (Option ℝ) → Option ℝ × Option ℝ

/-- The object of `compute_cmv`, cmv.py:288-294 and 381-393. -/
noncomputable def fullObject (x : Ext) (ex : Extras) (method backend : String) (out : Out ι) : FullObject ι :=
  if (goodPairs out.rows).length ≤ 1 then ⟨none, none, false, dataOf x method out⟩
  else ⟨some (out.rows.map fun r => (ex backend r.1.sigA r.1.sigB).1),
    if backend = "tf" then some (out.rows.map fun r => (ex backend r.1.sigA r.1.sigB).2) else none, true, dataOf x method out⟩

/-- `compute_cmv` with the complete object. -/
noncomputable def computeCmvObject [DecidableEq ι] (x : Ext) (ex : Extras) (ts : List (ι × List (Option ℝ))) (pos : List (ι × Vec)) (ref : RefArg ι)
    (method backend : String) (options : Option Dict) : Except PyErr (Option ℝ × Option ℝ × FullObject ι) :=
  (computeCmv x ts pos ref method backend options).1.map fun out => (out.speed, out.angle, fullObject x ex method.toLower backend.toLower out)

/-- `extras['zero_corr']` of the backends for columns without NaN: `compute_delays`, signalproc.py:672, and `compute_delays_tf`,
signalproc.py:839; `mean_coh` of 'tf', signalproc.py:814-818.  Columns with NaN give NaN. -/
noncomputable def extrasOf (ham : ℕ → List ℝ) (dt : ℝ) : Extras := fun backend a b =>
  if none ∈ a ∨ none ∈ b then (none, none)
  else if backend = "xcorr" then
    match Corr.computeDelays dt [a.filterMap id] [b.filterMap id] "loop" "coeff" with
    | .ok (r :: _) => (finiteOf r.zeroCorr, none)
    | _ => (none, none)
  else
    match Tf.computeDelaysTf ⟨dt, 5, 0.5, ham, .none⟩ [("A", a.filterMap id)] [("B", b.filterMap id)] (some 0.6) (some 0.02) "multi" with
    | .ok (r :: _) =>
      ((match Tf.xcorrExtras dt (a.filterMap id) (b.filterMap id) r.1 with
        | .ok e => finiteOf e.2.2
        | .error _ => none), finiteOf r.2.2)
    | _ => (none, none)

end SST.Cmv
