import Verif.Dates.LemmasNorm
import Verif.Dates.LemmasText

/-! C65: `Date.date` and `Date.compare` follow the calendar.  C66: time zones.  C67: text. -/

namespace Mosml.Dates

open Mosml.Num (Str)

/-- the C library of a machine in Greenwich, for the examples: it knows one time only -/
def greenwich : Clib where
  localtime _ := ⟨0, 0, 1, 0, 0, 0, 6, 0, 100⟩
  gmtime _ := ⟨0, 0, 1, 0, 0, 0, 6, 0, 100⟩
  mktime _ := 946684800
  localoffset := 0

theorem first_ok (a : Arg) : a.first.Valid := first_valid _ _

theorem seconds_iff (a : Arg) (c : Civil) (hc : c.Valid) : Later a.seconds a.first c ↔
    secNo c = 86400 * dayNo a.year a.month (a.day + (a.offset.getD 0).tdiv 86400) + 3600 * a.hour + 60 * a.minute + a.second := by
  rw [later_iff (first_ok _) hc]
  unfold Arg.seconds Arg.first secNo dayNo
  simp only
  omega

/-! ### C65 -/

/-- Seconds, minutes, hours and days may be any numbers: the result is the date on which the clock stands when it has
ticked that often since the beginning of the month (or would have to tick, for negative numbers), with the right day
of the year and the right day of the week. -/
theorem C65_date_is_calendar {C : Clib} {a : Arg} {r : Date} (h : date C a = .ok r) (hC : a.Known C) :
    r.civil.Valid ∧ Later a.seconds a.first r.civil ∧ r.yday = dayOfYear r.year r.month r.day ∧
    WeekdayOf r.civil r.wday := by
  obtain ⟨h1, h2, h3, h4⟩ := date_norm h (fun ho c hc h1 h2 h3 => hC ho c hc h1 h2 ((seconds_iff a c hc).mpr h3))
  exact ⟨h1, (seconds_iff a _ h1).mpr h2, h3, h4⟩

/-- 31 February 2024 and 25 hours, less a second, is 3 March, a Sunday -/
example : ∃ r, date greenwich ⟨2024, .feb, 31, 25, 0, -1, some 3600⟩ = .ok r ∧
    r.civil = ⟨2024, .mar, 3, 0, 59, 59⟩ ∧ r.wday = .sun ∧ r.yday = 62 := ⟨_, rfl, by decide⟩

/-- 1 March 1900 is the day after 28 February; the year 0 is a leap year -/
example : ∃ r r', date greenwich ⟨1900, .feb, 29, 0, 0, 0, none⟩ = .ok r ∧ r.civil = ⟨1900, .mar, 1, 0, 0, 0⟩ ∧
    date greenwich ⟨0, .feb, 29, 0, 0, 0, none⟩ = .ok r' ∧ r'.civil = ⟨0, .feb, 29, 0, 0, 0⟩ :=
  ⟨_, _, rfl, by decide, rfl, by decide⟩

/-- the hypothesis about the C library holds whenever the zone is given -/
example (C : Clib) : Arg.Known C ⟨2024, .feb, 31, 25, 0, -1, some 3600⟩ := by intro h; cases h

/-- the description by ticks of the clock determines the date and the number of seconds -/
theorem C65_later_unique {c d d' : Civil} (hc : c.Valid) (hd : d.Valid) (hd' : d'.Valid) {n n' : Int}
    (h : Later n c d) (h' : Later n' c d') : d = d' ↔ n = n' := by
  rw [later_iff hc hd] at h
  rw [later_iff hc hd'] at h'
  constructor
  · rintro rfl; omega
  · rintro rfl; exact secNo_inj hd hd' (by omega)

/-- a date that exists is left as it is -/
theorem C65_date_canonical {C : Clib} {a : Arg} {r : Date} (h : date C a = .ok r) (hC : a.Known C)
    (hv : (⟨a.year, a.month, a.day, a.hour, a.minute, a.second⟩ : Civil).Valid)
    (ho : ∀ t, a.offset = some t → -86400 < t ∧ t < 86400) :
    r.civil = ⟨a.year, a.month, a.day, a.hour, a.minute, a.second⟩ := by
  obtain ⟨h1, h2, -⟩ := C65_date_is_calendar h hC
  refine secNo_inj h1 hv ?_
  rw [seconds_iff a _ h1] at h2
  have : (a.offset.getD 0).tdiv 86400 = 0 := by
    cases hh : a.offset with
    | none => rfl
    | some t =>
      have := ho t hh
      simp only [Option.getD_some]
      have : (t.tdiv 86400).natAbs = t.natAbs / 86400 := Int.natAbs_tdiv t 86400
      omega
  rw [h2, this]
  simp [secNo]

/-- one more second is one tick of the clock, and 60 seconds are a minute, 60 minutes an hour, 24 hours a day -/
theorem C65_date_steps {C : Clib} {a b : Arg} {r s : Date} (ha : date C a = .ok r) (hb : date C b = .ok s)
    (hCa : a.Known C) (hCb : b.Known C) :
    (b = { a with second := a.second + 1 } → s.civil = r.civil.tick) ∧
    (b = { a with minute := a.minute + 1, second := a.second - 60 } → s.civil = r.civil) ∧
    (b = { a with hour := a.hour + 1, minute := a.minute - 60 } → s.civil = r.civil) ∧
    (b = { a with day := a.day + 1, hour := a.hour - 24 } → s.civil = r.civil) := by
  obtain ⟨h1, h2, -⟩ := C65_date_is_calendar ha hCa
  obtain ⟨g1, g2, -⟩ := C65_date_is_calendar hb hCb
  have first_eq : b.first = a.first → s.civil = r.civil ∨ b.seconds ≠ a.seconds := by
    intro he
    rw [he] at g2
    by_cases hn : b.seconds = a.seconds
    · left; exact (C65_later_unique (first_ok _) g1 h1 g2 h2).mpr hn
    · right; exact hn
  refine ⟨?_, ?_, ?_, ?_⟩
  · rintro rfl
    have ht := tick_ok h1
    refine secNo_inj g1 ht.2 ?_
    rw [later_iff (first_ok _) h1] at h2
    rw [later_iff (first_ok _) g1] at g2
    rw [g2, ht.1, h2]
    simp only [Arg.first, Arg.seconds]
    omega
  · rintro rfl; rcases first_eq rfl with h | h
    · exact h
    · exact absurd (by simp only [Arg.seconds]; omega) h
  · rintro rfl; rcases first_eq rfl with h | h
    · exact h
    · exact absurd (by simp only [Arg.seconds]; omega) h
  · rintro rfl; rcases first_eq rfl with h | h
    · exact h
    · exact absurd (by simp only [Arg.seconds]; omega) h

/-- there is a date for all arguments of reasonable size; years before 0 raise Date -/
theorem C65_date_total (C : Clib) (a : Arg) (hC : a.Known C) (hy : a.year ≤ 2 ^ 50)
    (hd : a.day.natAbs ≤ 2 ^ 50) (hh : a.hour.natAbs ≤ 2 ^ 50) (hm : a.minute.natAbs ≤ 2 ^ 50)
    (hs : a.second.natAbs ≤ 2 ^ 50) (ho : (a.offset.getD 0).natAbs ≤ 2 ^ 50) :
    (a.year < 0 ∧ date C a = .error .date) ∨ (0 ≤ a.year ∧ ∃ r, date C a = .ok r) := by
  by_cases hneg : a.year < 0
  · left; exact ⟨hneg, by unfold date; rw [if_pos hneg]⟩
  · right
    refine ⟨by omega, ?_⟩
    unfold date
    rw [if_neg hneg]
    cases hof : a.offset with
    | none =>
      rw [hof] at ho
      simp only [bind, Except.bind]
      rw [chk_in (by omega) (by omega)]
      simp only
      refine normalizedate_total ⟨by omega, hy⟩ (by omega) (by omega) (by omega) (by omega) ?_
      intro _ c hc h1 h2 h3
      refine hC hof c hc h1 h2 ((seconds_iff a c hc).mpr ?_)
      rw [h3, hof]; simp
    | some t =>
      rw [hof] at ho
      simp only [Option.getD_some] at ho
      have htd : (t.tdiv 86400).natAbs = t.natAbs / 86400 := Int.natAbs_tdiv t 86400
      simp only [bind, Except.bind]
      rw [chk_in (by split_ifs <;> omega) (by split_ifs <;> omega)]
      simp only
      rw [chk_in (by omega) (by omega)]
      simp only
      exact normalizedate_total ⟨by omega, hy⟩ (by omega) (by omega) (by omega) (by omega) (by intro h; cases h)

theorem cmp_lt_iff (a b : Int) (k : Ordering) : cmp a b k = .lt ↔ a < b ∨ (a = b ∧ k = .lt) := by
  unfold cmp
  split_ifs with h1 h2
  · simp [h1]
  · simp; omega
  · have : a = b := by omega
    simp [this]

theorem cmp_gt_iff (a b : Int) (k : Ordering) : cmp a b k = .gt ↔ b < a ∨ (b = a ∧ k = .gt) := by
  unfold cmp
  split_ifs with h1 h2
  · simp; omega
  · simp [h2]
  · have : b = a := by omega
    simp [this]

theorem compare_lt_iff (d d' : Date) : compare d d' = .lt ↔ d.civil.Before d'.civil := by
  simp only [compare, cmp_lt_iff, Civil.Before, Date.civil, month_eq_iff, reduceCtorEq, and_false, or_false]

theorem compare_gt_iff (d d' : Date) : compare d d' = .gt ↔ d'.civil.Before d.civil := by
  simp only [compare, cmp_gt_iff, Civil.Before, Date.civil, month_eq_iff, reduceCtorEq, and_false, or_false]

/-- `compare` tells which date is later, as the clock ticks -/
theorem C65_compare {d d' : Date} (h : d.civil.Valid) (h' : d'.civil.Valid) :
    (compare d d' = .lt ↔ ∃ n, 0 < n ∧ Later n d.civil d'.civil) ∧
    (compare d d' = .eq ↔ d.civil = d'.civil) ∧
    (compare d d' = .gt ↔ ∃ n, 0 < n ∧ Later n d'.civil d.civil) := by
  have key : ∀ {a b : Civil}, a.Valid → b.Valid → (a.Before b ↔ ∃ n, 0 < n ∧ Later n a b) := by
    intro a b ha hb
    constructor
    · intro hh
      have := before_secNo ha hb hh
      exact ⟨secNo b - secNo a, by omega, (later_iff ha hb _).mpr (by omega)⟩
    · rintro ⟨n, hn, hl⟩
      rw [later_iff ha hb] at hl
      rcases before_total a b with hh | rfl | hh
      · exact hh
      · omega
      · have := before_secNo hb ha hh; omega
  refine ⟨by rw [compare_lt_iff, key h h'], ?_, by rw [compare_gt_iff, key h' h]⟩
  constructor
  · intro he
    rcases before_total d.civil d'.civil with hh | hh | hh
    · rw [← compare_lt_iff, he] at hh; cases hh
    · exact hh
    · rw [← compare_gt_iff, he] at hh; cases hh
  · intro he
    cases hc : compare d d' with
    | eq => rfl
    | lt => rw [compare_lt_iff, key h h', he] at hc; obtain ⟨n, hn, hl⟩ := hc; rw [later_iff h' h'] at hl; omega
    | gt => rw [compare_gt_iff, key h' h, he] at hc; obtain ⟨n, hn, hl⟩ := hc; rw [later_iff h' h'] at hl; omega

example : ∃ r r', date greenwich ⟨1999, .dec, 31, 23, 59, 59, some 0⟩ = .ok r ∧
    date greenwich ⟨1999, .dec, 31, 23, 59, 60, some 0⟩ = .ok r' ∧ compare r r' = .lt ∧
    r'.civil = ⟨2000, .jan, 1, 0, 0, 0⟩ := ⟨_, _, rfl, rfl, by decide, by decide⟩

/-! ### C66 -/

/-- the offset can be read back, modulo a day -/
theorem C66_offset {C : Clib} {a : Arg} {r : Date} {t : Int} (h : date C a = .ok r) (ht : a.offset = some t)
    (hr : t < 2 ^ 62) : offset r = .ok (some (t % 86400)) ∧ r.isDst = some false := by
  obtain ⟨hy, off, hoff, hn⟩ := date_ok h
  rw [ht] at hoff
  obtain ⟨rfl, hb⟩ := hoff
  obtain ⟨d, hN, hr'⟩ := normalizedate_ok hn
  rcases hr' with rfl | ⟨hno, -⟩
  · refine ⟨?_, hN.isDst⟩
    unfold offset
    rw [hN.offset]
    simp only
    split_ifs at hb ⊢
    · rw [chk_in (by omega) (by omega)]; simp only [bind, Except.bind, Except.ok.injEq, Option.some.injEq]; omega
    · rw [chk_in (by omega) (by omega)]; simp only [bind, Except.bind, Except.ok.injEq, Option.some.injEq]; omega
  · cases hno

/-- a local date has no offset -/
theorem C66_offset_local {C : Clib} {a : Arg} {r : Date} (h : date C a = .ok r) (ht : a.offset = none) :
    offset r = .ok none := by
  obtain ⟨hy, off, hoff, hn⟩ := date_ok h
  rw [ht] at hoff
  have hoff : off = none := hoff
  subst hoff
  obtain ⟨d, hN, hr'⟩ := normalizedate_ok hn
  rcases hr' with rfl | ⟨-, -, -, tm, -, h2⟩
  · unfold offset; rw [hN.offset]
  · unfold offset; rw [(tmozToDate_ok h2).2.2.2]

/-- `toTime` of a date in a given zone is the time in UTC, if the offset is less than 12 hours, between 12 and 24 hours,
or between 24 and 36 hours.  MISSING: offsets of exactly 12 hours, of 36 hours and more, and negative ones below -12 hours,
for which it fails by a day or more (`C66_noon_violation`, `C66_days_violation`). -/
theorem C66_toTime_partial {C : Clib} (hS : C.Standard) {a : Arg} {r : Date} {t : Int} (h : date C a = .ok r)
    (ht : a.offset = some t) (hy : 1900 ≤ r.year) (hy' : r.year < 2 ^ 62)
    (hr : (-43200 ≤ t ∧ t < 43200) ∨ (43200 < t ∧ t < 86400) ∨ (86400 ≤ t ∧ t < 129600)) :
    ∃ n, Later n epoch r.civil ∧
      toTime C r = if n + west t < 0 then .error .date else .ok (n + west t) := by
  have hk : a.Known C := by intro hn; rw [ht] at hn; cases hn
  obtain ⟨hv, -⟩ := C65_date_is_calendar h hk
  obtain ⟨hy0, off, hoff, hn⟩ := date_ok h
  rw [ht] at hoff
  obtain ⟨rfl, hb⟩ := hoff
  obtain ⟨d, hN, hr'⟩ := normalizedate_ok hn
  rcases hr' with rfl | ⟨hno, -⟩
  · obtain ⟨tm, htm⟩ := dateToTmoz_total hv hy hy'
    have he : epoch.Valid := by decide
    have hl : Later (secNo r.civil - secNo epoch) epoch r.civil := (later_iff he hv _).mpr (by omega)
    refine ⟨_, hl, ?_⟩
    obtain ⟨k1, k2, -⟩ := dateToTmoz_ok htm
    rw [hN.isDst] at k2
    have hm := hS tm r.civil _ k2 k1 hv hl
    unfold toTime
    rw [hN.offset, htm]
    simp only [bind, Except.bind]
    rw [hm]
    generalize secNo r.civil - secNo epoch = n
    have hw : n + C.localoffset - (C.localoffset + if t ≤ 43200 then -t else 86400 - t) = n + west t := by
      unfold west; split_ifs <;> omega
    rw [hw]
  · cases hno

/-- a library for which the hypothesis holds: standard time one hour east of Greenwich -/
theorem standard_exists : ∃ C : Clib, C.Standard ∧ C.localoffset = -3600 := by
  classical
  refine ⟨⟨fun _ => ⟨0, 0, 1, 0, 0, 0, 6, 0, 100⟩, fun _ => ⟨0, 0, 1, 0, 0, 0, 6, 0, 100⟩, fun tm =>
    if h : ∃ c n, tm.For c ∧ c.Valid ∧ Later n epoch c then h.choose_spec.choose + -3600 else 0, -3600⟩, ?_, rfl⟩
  intro tm c n _ hf hv hl
  have h : ∃ c n, tm.For c ∧ c.Valid ∧ Later n epoch c := ⟨c, n, hf, hv, hl⟩
  simp only
  rw [dif_pos h]
  obtain ⟨g1, g2, g3⟩ := h.choose_spec.choose_spec
  have e := hf.unique g1
  have : n = h.choose_spec.choose :=
    (C65_later_unique (c := epoch) (by decide) hv g2 hl g3).mp e
  omega

example : ∃ r, date greenwich ⟨2000, .jan, 1, 0, 0, 0, some 3600⟩ = .ok r ∧ r.year = 2000 ∧ r.offset = some (-3600) ∧
    toTime greenwich r = .ok 946688400 := ⟨_, rfl, by decide⟩

/-- Date.sig: with an offset of 12 hours the local time is UTC+12.  `toTime` takes it to be UTC-12: midnight at the
beginning of 2000 there is noon of 31 December 1999 in UTC, but the result is noon of 1 January. -/
theorem C66_noon_violation : west 43200 = -43200 ∧ ∀ C : Clib, C.Standard →
    ∃ r, date C ⟨2000, .jan, 1, 0, 0, 0, some 43200⟩ = .ok r ∧ Later 946684800 epoch r.civil ∧
      toTime C r = .ok (946684800 + 43200) ∧ toTime C r ≠ .ok (946684800 + west 43200) := by
  refine ⟨by decide, fun C hS => ?_⟩
  have hd : date C ⟨2000, .jan, 1, 0, 0, 0, some 43200⟩ =
      .ok ⟨2000, .jan, 1, 0, 0, 0, .sat, 0, some false, some (-43200)⟩ := rfl
  have hl : Later 946684800 epoch ⟨2000, .jan, 1, 0, 0, 0⟩ := (later_iff (by decide) (by decide) _).mpr (by decide)
  have hm := hS ⟨0, 0, 1, 0, 0, 0, 6, 0, 100⟩ ⟨2000, .jan, 1, 0, 0, 0⟩ 946684800 rfl
    (by unfold Tm.For; decide) (by decide) hl
  have ht : toTime C ⟨2000, .jan, 1, 0, 0, 0, .sat, 0, some false, some (-43200)⟩ = .ok (946684800 + 43200) := by
    have e : dateToTmoz ⟨2000, .jan, 1, 0, 0, 0, .sat, 0, some false, some (-43200)⟩ = .ok ⟨0, 0, 1, 0, 0, 0, 6, 0, 100⟩ := rfl
    unfold toTime
    rw [e]
    simp only [bind, Except.bind]
    rw [hm, if_neg (by omega)]
    refine congrArg Except.ok ?_; omega
  exact ⟨_, hd, hl, ht, by rw [ht]; decide⟩

/-- Date.sig: whole days in the offset are added to the days and the rest is used.  But `toTime` counts all days but one
of them once more: two dates that agree in all that can be seen of them, the offset included, are at times
that differ by a day. -/
theorem C66_days_violation (C : Clib) (hS : C.Standard) :
    ∃ r s, date C ⟨2000, .jan, 1, 0, 0, 0, some 172800⟩ = .ok r ∧ date C ⟨2000, .jan, 3, 0, 0, 0, some 0⟩ = .ok s ∧
      r.civil = s.civil ∧ r.wday = s.wday ∧ r.yday = s.yday ∧ r.isDst = s.isDst ∧ offset r = .ok (some 0) ∧ offset s = .ok (some 0) ∧
      toTime C s = .ok 946857600 ∧ toTime C r = .ok (946857600 + 86400) := by
  have hl : Later 946857600 epoch ⟨2000, .jan, 3, 0, 0, 0⟩ := (later_iff (by decide) (by decide) _).mpr (by decide)
  have hm := hS ⟨0, 0, 3, 0, 0, 0, 1, 2, 100⟩ ⟨2000, .jan, 3, 0, 0, 0⟩ 946857600 rfl (by unfold Tm.For; decide) (by decide) hl
  have e1 : dateToTmoz ⟨2000, .jan, 3, 0, 0, 0, .mon, 2, some false, some (-86400)⟩ = .ok ⟨0, 0, 3, 0, 0, 0, 1, 2, 100⟩ := rfl
  have e2 : dateToTmoz ⟨2000, .jan, 3, 0, 0, 0, .mon, 2, some false, some 0⟩ = .ok ⟨0, 0, 3, 0, 0, 0, 1, 2, 100⟩ := rfl
  refine ⟨⟨2000, .jan, 3, 0, 0, 0, .mon, 2, some false, some (-86400)⟩, ⟨2000, .jan, 3, 0, 0, 0, .mon, 2, some false, some 0⟩,
    rfl, rfl, rfl, rfl, rfl, rfl, rfl, rfl, ?_, ?_⟩
  · unfold toTime
    rw [e2]
    simp only [bind, Except.bind]
    rw [hm, if_neg (by omega)]
    refine congrArg Except.ok ?_; omega
  · unfold toTime
    rw [e1]
    simp only [bind, Except.bind]
    rw [hm, if_neg (by omega)]
    refine congrArg Except.ok ?_; omega

/-! ### C67 -/

/-- A date in the years 1900 to 9999 is printed as 24 characters, and reading them gives its fields back; the day of the
year is computed, the zone forgotten.  (Leap seconds, 60 and 61, are printed and read as well.) -/
theorem C67_roundtrip_partial {d : Date} (hy : 1900 ≤ d.year) (hy' : d.year ≤ 9999)
    (hd : 1 ≤ d.day ∧ d.day ≤ lastDay d.year d.month) (hh : 0 ≤ d.hour ∧ d.hour ≤ 23)
    (hm : 0 ≤ d.minute ∧ d.minute ≤ 59) (hs : 0 ≤ d.second ∧ d.second ≤ 61) :
    ∃ s, toString d = .ok s ∧ s.length = 24 ∧
      fromString s = .ok (some { d with yday := dayOfYear d.year d.month d.day, isDst := none, offset := none }) := by
  have hok : okDate d = true := by
    unfold okDate
    rw [monthdays_eq]
    simp only [Bool.and_eq_true, decide_eq_true_eq]
    omega
  have hld := lastDay_range d.year d.month
  obtain ⟨tm, htm⟩ : ∃ tm, dateToTmoz d = .ok tm := by
    unfold dateToTmoz; rw [if_pos hok, chk_in (by omega) (by omega)]; exact ⟨_, rfl⟩
  obtain ⟨⟨k1, k2, k3, k4, k5, k6⟩, -, k7, -⟩ := dateToTmoz_ok htm
  simp only [Date.civil] at k1 k2 k3 k4 k5 k6
  have hasc : asctime tm = .ok (str (wdayName d.wday) ++ 32 :: str (monName d.month) ++ w3 d.day ++ 32 :: d2 d.hour ++
      58 :: d2 d.minute ++ 58 :: d2 d.second ++ 32 :: Num.intFmt .dec d.year ++ [10]) := by
    unfold asctime
    rw [k7, toweekday_fromwday, k2, tomonth_frommonth, k3, k4, k5, k6, k1,
      show 1900 + (d.year - 1900) = d.year by omega]
    rfl
  generalize hT : (str (wdayName d.wday) ++ 32 :: str (monName d.month) ++ w3 d.day ++ 32 :: d2 d.hour ++
      58 :: d2 d.minute ++ 58 :: d2 d.second ++ 32 :: Num.intFmt .dec d.year : Str) = T at hasc
  have hlen : T.length = 24 := by
    rw [← hT]
    simp only [List.length_append, List.length_cons, (wday_take d.wday []).2.2.2, (month_take d.month []).2.2.2,
      w3_length (n := d.day) (by omega) (by omega), d2_length (n := d.hour) (by omega) (by omega),
      d2_length (n := d.minute) (by omega) (by omega), d2_length (n := d.second) (by omega) (by omega),
      year_length (y := d.year) (by omega) (by omega)]
  refine ⟨T, ?_, hlen, ?_⟩
  · unfold toString
    rw [htm]
    simp only [bind, Except.bind]
    rw [hasc]
    simp only
    rw [if_neg (by simp [hlen])]
    rw [List.take_append_of_le_length (by omega), ← hlen, List.take_length]
  · obtain ⟨w, hw⟩ := w3_head (n := d.day) (by omega) (by omega)
    have hT' : T = str (wdayName d.wday) ++ 32 :: (str (monName d.month) ++ 32 :: (w ++ 32 :: (d2 d.hour ++ 58 :: (d2 d.minute ++
        58 :: (d2 d.second ++ 32 :: Num.intFmt .dec d.year))))) := by
      rw [← hT, hw]; simp
    have hsc : scan T = .ok (some ({ d with yday := dayOfYear d.year d.month d.day, isDst := none, offset := none }, [])) := by
      unfold scan
      rw [hT']
      simp only [(wday_take _ _).1, (wday_take _ _).2.1, (month_take _ _).1, (month_take _ _).2.1]
      have g1 := getint_w3 (n := d.day) (by omega) (by omega) (c := 32) (d2 d.hour ++ 58 :: (d2 d.minute ++
        58 :: (d2 d.second ++ 32 :: Num.intFmt .dec d.year))) rfl
      rw [hw, List.cons_append] at g1
      rw [g1]
      simp only [bind, Except.bind, getint_space]
      rw [getint_d2 (by omega) (by omega) _ rfl]
      simp only
      rw [drop_colon (by omega) (by omega), getint_d2 (by omega) (by omega) _ rfl]
      simp only
      rw [drop_colon (by omega) (by omega), getint_d2 (by omega) (by omega) _ rfl]
      simp only [getint_space]
      rw [getint_year (by omega)]
      simp only [(month_take _ []).2.2.1, (wday_take _ []).2.2.1]
      rw [dayinyear_total (by omega)]
      simp only [pure, Except.pure]
      rw [dayOfYear_eq]
    unfold fromString
    rw [hsc]
    rfl

example : toString ⟨1995, .mar, 8, 19, 6, 45, .wed, 66, none, none⟩ = .ok (str "Wed Mar  8 19:06:45 1995") ∧
    fromString (str "Wed Mar  8 19:06:45 1995") = .ok (some ⟨1995, .mar, 8, 19, 6, 45, .wed, 66, none, none⟩) := by
  decide +kernel

/-- dates before 1900, and dates that do not exist, are not printed: `toString` raises Date -/
theorem C67_toString_invalid {d : Date} (h : d.year < 1900 ∨ d.day < 1 ∨ lastDay d.year d.month < d.day ∨ d.hour < 0 ∨
    23 < d.hour ∨ d.minute < 0 ∨ 59 < d.minute ∨ d.second < 0 ∨ 61 < d.second) : toString d = .error .date := by
  have hok : ¬ okDate d = true := by
    unfold okDate
    rw [monthdays_eq]
    simp only [Bool.and_eq_true, decide_eq_true_eq]
    omega
  unfold toString dateToTmoz
  rw [if_neg hok]
  rfl

/-- from the year 10000 on, the text is cut off after 24 characters: the year loses its last digits and reading it
gives another date -/
theorem C67_long_year_violation : ∃ d : Date, d.civil.Valid ∧ d.year = 12345 ∧
    toString d = .ok (str "Fri Mar  8 19:06:45 1234") ∧
    ∃ d', fromString (str "Fri Mar  8 19:06:45 1234") = .ok (some d') ∧ d'.year = 1234 :=
  ⟨⟨12345, .mar, 8, 19, 6, 45, .fri, 66, none, none⟩, by decide +kernel, rfl, by decide +kernel, _,
    (by decide +kernel : fromString (str "Fri Mar  8 19:06:45 1234") =
      .ok (some ⟨1234, .mar, 8, 19, 6, 45, .fri, 66, none, none⟩)), rfl⟩

/-- Date.sig: `fromString` skips initial white space.  It does not: no string that begins with a blank is a date. -/
theorem C67_leading_space_violation (s : Str) (d : Date) : fromString (32 :: s) ≠ .ok (some d) := by
  intro h
  unfold fromString at h
  obtain ⟨x, h1, h⟩ := bind_ok h
  cases x with
  | none => cases h
  | some x =>
    unfold scan at h1
    have e : (32 :: s).takeWhile isAlpha = [] := rfl
    simp only [e] at h1
    obtain ⟨o1, -, h1⟩ := bind_ok h1
    cases o1 with
    | none => cases h1
    | some o1 =>
    simp only at h1
    obtain ⟨o2, -, h1⟩ := bind_ok h1
    cases o2 with
    | none => cases h1
    | some o2 =>
    simp only at h1
    obtain ⟨o3, -, h1⟩ := bind_ok h1
    cases o3 with
    | none => cases h1
    | some o3 =>
    simp only at h1
    obtain ⟨o4, -, h1⟩ := bind_ok h1
    cases o4 with
    | none => cases h1
    | some o4 =>
    simp only at h1
    obtain ⟨o5, -, h1⟩ := bind_ok h1
    cases o5 with
    | none => cases h1
    | some o5 =>
    simp only at h1
    split at h1
    · rename_i m hm
      rw [show getWday [] = none from rfl] at h1
      cases h1
    · cases h1

end Mosml.Dates
