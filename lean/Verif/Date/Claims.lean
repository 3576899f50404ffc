import Verif.Date.Theorems
import Verif.FastVal.Func
import Verif.FastVal.Theorems
import Verif.Transform.Model
import Verif.Json.Model

/-!
# Claims about dates
-/

namespace Verif.Date
open Verif.FastVal Verif.Expr

variable {T : Type}

/-! ### A reader that meets the assumptions -/

def n2 : Str → Nat
  | a :: b :: _ => (a - 48) * 10 + (b - 48)
  | _ => 0

def whenOf (s : Str) : When :=
  ⟨n2 s * 100 + n2 (s.drop 2), n2 (s.drop 5), n2 (s.drop 8), n2 (s.drop 11), n2 (s.drop 14), n2 (s.drop 17)⟩

def demoRfc (s : Str) : Option When := if s = rfcText 45 45 (whenOf s) ∧ (whenOf s).Real then some (whenOf s) else none

theorem whenOf_text (a b : Nat) (w : When) (hw : w.Shaped) : whenOf (rfcText a b w) = w := by
  obtain ⟨y, m, d, h, mi, s⟩ := w
  obtain ⟨h1, h2, h3, h4, h5, h6⟩ := hw
  dsimp only at *
  simp only [whenOf, rfcText, clock, d4, d2, n2, List.cons_append, List.nil_append, List.drop_succ_cons, List.drop_zero, When.mk.injEq]
  omega

theorem demo_laws : RfcLaws demoRfc id where
  reads w hw hr := by simp [demoRfc, whenOf_text _ _ _ hw, hr]
  unreal w hw hr := by simp [demoRfc, whenOf_text _ _ _ hw, hr]
  seps w a b hw h := by
    rw [demoRfc, whenOf_text _ _ _ hw, if_neg]
    rintro ⟨he, _⟩
    simp only [rfcText, d4, d2, clock, List.cons_append, List.nil_append, List.cons.injEq] at he
    exact h ⟨he.2.2.2.2.1, he.2.2.2.2.2.2.2.1⟩
  tee s t h := by
    unfold demoRfc at h
    split at h
    · rename_i hs; rw [hs.1]; rfl
    · cases h

/-! ### C68: the texts that DATE reads -/

def C68_dates (rfc : Str → Option T) (at_ : When → T) : Prop :=
  ∀ s w, DayText AnySep s w ∨ StampText AnySep s w → w.Real → dateBin rfc s = some (at_ w)

/-- **C68.**  `DATE` of a string of the document reads exactly: the years, months and days of 1900 to 2099 that are written with `-` and
exist, such days followed by spaces and a time, and what `time.Parse` reads. -/
theorem C68_partial {rfc : Str → Option T} {at_ : When → T} (L : RfcLaws rfc at_) (s : Str) (t : T) :
    dateBin rfc s = some t ↔ (∃ w, (DayText Dash s w ∨ StampText Dash s w) ∧ w.Real ∧ t = at_ w) ∨ rfc s = some t := dateBin_iff L s t

theorem slash_day : DayText AnySep (ascii "2019/01/01") ⟨2019, 1, 1, 0, 0, 0⟩ :=
  .day 2019 1 1 47 47 (by decide) (by decide) (by decide) (by decide) (by decide) (by decide) (by simp [AnySep]) (by simp [AnySep])

/-- A text for a day is read only with `-` and if the day exists. -/
theorem day_iff {rfc : Str → Option T} {at_ : When → T} (L : RfcLaws rfc at_) {s : Str} {w : When} (hw : DayText AnySep s w) (t : T) :
    getNewTime rfc s = some t ↔ DayText Dash s w ∧ w.Real ∧ t = at_ w := by
  obtain ⟨a, b, he, hd⟩ := iso_day hw
  rw [getNewTime, he, rfc_text L hw.shaped, ← hd, and_assoc]

theorem slash_none {rfc : Str → Option T} {at_ : When → T} (L : RfcLaws rfc at_) : getNewTime rfc (ascii "2019/01/01") = none := by
  cases h : getNewTime rfc (ascii "2019/01/01") with
  | none => rfl
  | some t =>
    have := ((day_iff L slash_day t).1 h).1
    generalize hs : ascii "2019/01/01" = s at this
    generalize (⟨2019, 1, 1, 0, 0, 0⟩ : When) = w at this
    cases this with
    | year y => have := congrArg List.length hs; simp [d4, d2, ascii] at this
    | month y m => have := congrArg List.length hs; simp [d4, d2, ascii] at this
    | day y m d a b _ _ _ _ _ _ ha hb =>
      have := congrArg (fun s => s[4]?) hs
      have h2 : (ascii "2019/01/01")[4]? = some 47 := by decide
      simp only [h2] at this
      have h3 : (d4 y ++ a :: d2 m ++ b :: d2 d)[4]? = some a := rfl
      rw [h3, ha] at this
      cases this

/-- The patterns let `/`, `.` and spaces through between year, month and day, but `time.Parse` does not. -/
theorem C68_negation {rfc : Str → Option T} {at_ : When → T} (L : RfcLaws rfc at_) : ¬ C68_dates rfc at_ := by
  intro h
  have := h _ _ (.inl slash_day) (by decide)
  rw [dateBin_eq, if_neg (by decide +kernel), slash_none L] at this
  cases this

example : dateBin demoRfc (ascii "2019-07") = some ⟨2019, 7, 1, 0, 0, 0⟩ ∧ dateBin demoRfc (ascii "2019-07-04   23:59:01") = some ⟨2019, 7, 4, 23, 59, 1⟩ ∧
    dateBin demoRfc (ascii "2019-02-29") = none := by decide +kernel

/-! ### C69: the check of the parsers -/

def C69_check (rfc : Str → Option T) : Prop := ∀ s, validTime rfc s = true ↔ (getNewTime rfc s).isSome = true

theorem validTime_iff (rfc : Str → Option T) (s : Str) : validTime rfc s = true ↔ (∃ w, DayText AnySep s w) ∨ (rfc s).isSome = true := by
  rw [validTime]
  simp only [Bool.or_eq_true]
  constructor
  · rintro (((h | h) | h) | h)
    · exact .inr h
    · obtain ⟨y, h1, h2, rfl⟩ := mat_year.1 ((test_iff _ _).1 h)
      exact .inl ⟨_, .year y h1 h2⟩
    · obtain ⟨y, m, a, h1, h2, h3, h4, h5, rfl⟩ := mat_isoMonth.1 ((test_iff _ _).1 h)
      exact .inl ⟨_, .month y m a h1 h2 h3 h4 h5⟩
    · obtain ⟨y, m, d, a, b, h1, h2, h3, h4, h5, h6, h7, h8, rfl⟩ := mat_isoDay.1 ((test_iff _ _).1 h)
      exact .inl ⟨_, .day y m d a b h1 h2 h3 h4 h5 h6 h7 h8⟩
  · rintro (⟨w, h⟩ | h)
    · cases h with
      | year y h1 h2 => exact .inl (.inl (.inr ((test_iff _ _).2 (mat_year.2 ⟨y, h1, h2, rfl⟩))))
      | month y m a h1 h2 h3 h4 h5 => exact .inl (.inr ((test_iff _ _).2 (mat_isoMonth.2 ⟨y, m, a, h1, h2, h3, h4, h5, rfl⟩)))
      | day y m d a b h1 h2 h3 h4 h5 h6 h7 h8 => exact .inr ((test_iff _ _).2 (mat_isoDay.2 ⟨y, m, d, a, b, h1, h2, h3, h4, h5, h6, h7, h8, rfl⟩))
    · exact .inl (.inl (.inl h))

/-- **C69.**  What is read as a constant passes the check; what passes the check and is not read is exactly: texts for a day with
separators other than `-`, or for a day that does not exist. -/
theorem C69_partial {rfc : Str → Option T} {at_ : When → T} (L : RfcLaws rfc at_) (s : Str) :
    ((getNewTime rfc s).isSome = true → validTime rfc s = true) ∧
    (validTime rfc s = true ∧ getNewTime rfc s = none ↔ ∃ w, DayText AnySep s w ∧ ¬ (DayText Dash s w ∧ w.Real)) := by
  constructor
  · intro h
    obtain ⟨t, ht⟩ := Option.isSome_iff_exists.1 h
    rw [validTime_iff]
    rcases (getNewTime_iff L s t).1 ht with ⟨w, h1, _⟩ | h
    · exact .inl ⟨w, h1.mono fun _ => AnySep.of_dash⟩
    · exact .inr (by rw [h]; rfl)
  · rw [validTime_iff]
    constructor
    · rintro ⟨⟨w, hw⟩ | h, hn⟩
      · refine ⟨w, hw, fun hd => ?_⟩
        rw [(day_iff L hw _).2 ⟨hd.1, hd.2, rfl⟩] at hn
        cases hn
      · obtain ⟨t, ht⟩ := Option.isSome_iff_exists.1 h
        rw [(getNewTime_iff L s t).2 (.inr ht)] at hn
        cases hn
    · rintro ⟨w, hw, hd⟩
      refine ⟨.inl ⟨w, hw⟩, ?_⟩
      cases h : getNewTime rfc s with
      | none => rfl
      | some t => exact absurd ⟨((day_iff L hw t).1 h).1, ((day_iff L hw t).1 h).2.1⟩ hd

theorem C69_negation {rfc : Str → Option T} {at_ : When → T} (L : RfcLaws rfc at_) : ¬ C69_check rfc := by
  intro h
  have := (h (ascii "2019/01/01")).1 ((validTime_iff _ _).2 (.inl ⟨_, slash_day⟩))
  rw [slash_none L] at this
  cases this

example : validTime demoRfc (ascii "2019-02-30") = true ∧ getNewTime demoRfc (ascii "2019-02-30") = none ∧
    validTime demoRfc (ascii "2019-02") = true ∧ getNewTime demoRfc (ascii "2019-02") = some ⟨2019, 2, 1, 0, 0, 0⟩ := by decide +kernel

variable {E : Ext}

/-- The expression `["equals",["field","a"],["time","2019/01/01"]]`. -/
def slashJson (E : Ext) : Js E :=
  .cons (.str (ascii "equals")) (.cons (.arr (.cons (.str (ascii "field")) (.cons (.str (ascii "a")) .nil)))
    (.cons (.arr (.cons (.str (ascii "time")) (.cons (.str (ascii "2019/01/01")) .nil))) .nil))

/-- It passes the parser of JSON expressions and crashes the compiler. -/
theorem C69_crash {rfc : Str → Option E.T} {at_ : When → E.T} (L : RfcLaws rfc at_) (hE : E.parseTime = getNewTime rfc) (C : Transform.Comp E) (slot0 : Nat) :
    ∃ e, Json.parseSub (validTime rfc) (slashJson E) = .ok (some e) ∧ Transform.transform C slot0 [e] = .panic := by
  refine ⟨.cmp .eq (.field ⟨0, [ascii "a"]⟩) (.time (.json (.str (ascii "2019/01/01")))), ?_, ?_⟩
  · have hv : validTime rfc (ascii "2019/01/01") = true := (validTime_iff _ _).2 (.inl ⟨_, slash_day⟩)
    have ht : Json.parseSub (validTime rfc) (.cons (.str (ascii "time")) (.cons (.str (ascii "2019/01/01")) .nil) : Js E) =
        .ok (some (.time (.json (.str (ascii "2019/01/01"))))) := by
      show Json.aTime (validTime rfc) [⟨.str (ascii "2019/01/01"), _⟩] = _
      simp [Json.aTime, Res.idx, hv]
    have hf : Json.parseSub (validTime rfc) (.cons (.str (ascii "field")) (.cons (.str (ascii "a")) .nil) : Js E) =
        .ok (some (.field ⟨0, [ascii "a"]⟩)) := rfl
    show Json.aCmp .eq [⟨_, some (Json.parseSub (validTime rfc) _)⟩, ⟨_, some (Json.parseSub (validTime rfc) _)⟩] = _
    rw [ht, hf]
    rfl
  · have hn := slash_none L
    rw [← hE] at hn
    have hd : ∀ t ctx, Transform.makeDataRef C t ctx (.time (.json (.str (ascii "2019/01/01")))) = .panic := by
      intro t ctx
      rw [Transform.makeDataRef, Transform.makeParam, Transform.asStr, Res.bind_ok, hn]
      rfl
    obtain ⟨b, hb, lr, hlr⟩ : ∃ b, Transform.pickBase { slotIdx := slot0, bucketIdx := 1, root := Transform.emptyExec, tree := [⟨.leaf, 0, 0, 0⟩], ctx := [], active := 0 }
        (.cmp .eq (.field ⟨0, [ascii "a"]⟩) (.time (.json (.str (ascii "2019/01/01")))) : Expr E) = .ok b ∧
        ∃ lr, Transform.makeDataRef C b.1 b.2 (.field ⟨0, [ascii "a"]⟩) = .ok lr := ⟨_, rfl, _, rfl⟩
    rw [Transform.transform]
    simp only [Transform.genExprs, Transform.tMerge, Transform.tOne, Transform.tCompare]
    rw [if_neg (by simp), hb, Res.bind_ok, hlr, Res.bind_ok, hd]
    rfl

/-- Values whose times are read by `demoRfc`. -/
def dateExt : Ext := { demoExt with T := When, parseTime := getNewTime demoRfc, timeEq := fun a b => a = b, timeAfter := fun _ _ => false }

/-- The hypotheses of `C69_crash` can be met. -/
example : RfcLaws (T := dateExt.T) demoRfc id ∧ dateExt.parseTime = getNewTime demoRfc := ⟨demo_laws, rfl⟩

/-! ### C70: constants and documents -/

def C70_same (rfc : Str → Option T) : Prop := ∀ s, dateBin rfc s = getNewTime rfc s

/-- **C70.**  A constant and a string of the document with the same text are the same date, unless the text is a day with a time after
spaces, which is read in documents only. -/
theorem C70_partial {rfc : Str → Option T} {at_ : When → T} (L : RfcLaws rfc at_) (s : Str) :
    dateBin rfc s = getNewTime rfc s ↔ ¬ ∃ w, StampText Dash s w ∧ w.Real := by
  constructor
  · rintro h ⟨w, hw, hr⟩
    have h1 := (dateBin_iff L s (at_ w)).2 (.inl ⟨w, .inr hw, hr, rfl⟩)
    rw [h] at h1
    rcases (getNewTime_iff L s _).1 h1 with ⟨w', h2, _⟩ | h2
    · have := h2.len
      have := stamp_len hw
      omega
    · have := L.tee _ _ h2
      rw [stamp_ten hw] at this
      cases this
  · intro h
    apply Option.ext
    intro t
    rw [dateBin_iff L, getNewTime_iff L]
    constructor
    · rintro (⟨w, h1 | h1, h2⟩ | h1)
      · exact .inl ⟨w, h1, h2⟩
      · exact absurd ⟨w, h1, h2.1⟩ h
      · exact .inr h1
    · rintro (⟨w, h1, h2⟩ | h1)
      · exact .inl ⟨w, .inl h1, h2⟩
      · exact .inr h1

theorem demo_stamp : StampText Dash (ascii "2019-07-04 23:59:01") ⟨2019, 7, 4, 23, 59, 1⟩ :=
  ⟨⟨by decide, by decide, by decide, by decide, by decide, by decide⟩, 45, 45, 0, rfl, rfl, by decide⟩

theorem C70_negation {rfc : Str → Option T} {at_ : When → T} (L : RfcLaws rfc at_) : ¬ C70_same rfc :=
  fun h => (C70_partial L _).1 (h (ascii "2019-07-04 23:59:01")) ⟨_, demo_stamp, by decide⟩

/-- The same for values: `DATE` of a constant and of a string of the document. -/
theorem C70_values {rfc : Str → Option E.T} {at_ : When → E.T} (L : RfcLaws rfc at_) (X : Fns E) (hX : X.date = dateBin rfc)
    (hE : E.parseTime = getNewTime rfc) (s : Str) (u v : Bool) (hs : ¬ ∃ w, StampText Dash s w ∧ w.Real) :
    dateFunc X ⟨.binStr s, u⟩ = dateFunc X ⟨.str s, v⟩ := by
  simp only [dateFunc, hX, hE, (C70_partial L s).2 hs]

example : ¬ (∃ w, StampText Dash (ascii "2019-07-04") w ∧ w.Real) ∧ dateBin demoRfc (ascii "2019-07-04") = getNewTime demoRfc (ascii "2019-07-04") :=
  ⟨by rintro ⟨w, h, _⟩; have := stamp_len h; revert this; decide, by decide +kernel⟩

/-- `DATE` of a string of the document is the time the text spells, and no value if it spells none. -/
theorem C70_function {rfc : Str → Option E.T} {at_ : When → E.T} (L : RfcLaws rfc at_) (X : Fns E) (hX : X.date = dateBin rfc)
    (s : Str) (u : Bool) (ps : List (FV E)) :
    (∃ t, applyFn X .date (⟨.binStr s, u⟩ :: ps) = .ok ⟨.time t, false⟩ ∧
      ((∃ w, (DayText Dash s w ∨ StampText Dash s w) ∧ w.Real ∧ t = at_ w) ∨ rfc s = some t)) ∨
    (applyFn X .date (⟨.binStr s, u⟩ :: ps) = .ok invalidV ∧
      ∀ t, ¬ ((∃ w, (DayText Dash s w ∨ StampText Dash s w) ∧ w.Real ∧ t = at_ w) ∨ rfc s = some t)) := by
  simp only [applyFn, dateFunc, hX]
  cases h : dateBin rfc s with
  | some t => exact .inl ⟨t, rfl, (dateBin_iff L s t).1 h⟩
  | none => exact .inr ⟨rfl, fun t ht => by rw [(dateBin_iff L s t).2 ht] at h; cases h⟩

/-- `DATE` of a constant, of a time, and of anything else. -/
theorem C70_others (X : Fns E) (u : Bool) (ps : List (FV E)) :
    (∀ s, applyFn X .date (⟨.jsonStr s, u⟩ :: ps) = applyFn X .date (⟨.binStr s, u⟩ :: ps)) ∧
    (∀ s, applyFn X .date (⟨.str s, u⟩ :: ps) = .ok (match E.parseTime s with
      | some t => ⟨.time t, false⟩
      | none => invalidV)) ∧
    (∀ t, applyFn X .date (⟨.time t, u⟩ :: ps) = .ok ⟨.time t, u⟩) ∧
    (∀ d : Data E, d.ty ≠ .time → d.ty.isString = false → applyFn X .date (⟨d, u⟩ :: ps) = .ok invalidV) := by
  refine ⟨fun s => rfl, fun s => ?_, fun t => rfl, fun d h1 h2 => ?_⟩
  · simp only [applyFn, dateFunc]
    cases E.parseTime s <;> rfl
  · cases d <;> first | rfl | exact absurd rfl h1 | cases h2

end Verif.Date
