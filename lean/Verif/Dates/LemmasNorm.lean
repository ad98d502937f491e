import Verif.Dates.Lemmas

namespace Mosml.Dates

theorem secNo_epoch : secNo epoch = 86400 * 719163 := by decide

theorem dayNo_epoch_mod : (719163 : Int) % 7 = 4 := by decide

theorem weekdayOf_iff {c : Civil} (hc : c.Valid) (w : Weekday) :
    WeekdayOf c w ↔ fromwday w = dayNo c.year c.month c.day % 7 := by
  have he : epoch.Valid := by decide
  have hc' := hc
  obtain ⟨-, -, h3, h4, h5, h6, h7, h8⟩ := hc'
  unfold WeekdayOf
  constructor
  · rintro ⟨n, h1, h2⟩
    rw [later_iff he hc, secNo_epoch] at h1
    rw [daysOn_iff] at h2
    rw [h2]
    simp only [fromwday]
    unfold secNo at h1
    omega
  · intro h
    refine ⟨secNo c - secNo epoch, (later_iff he hc _).mpr (by omega), ?_⟩
    rw [daysOn_iff, h, secNo_epoch]
    simp only [fromwday]
    unfold secNo
    omega

/-- what `normalizedate` computes before it asks the C library -/
structure Norm (yr0 : Int) (mo0 : Month) (dy0 hr0 mn0 sec0 : Int) (off : Option Int) (d : Date) : Prop where
  valid : d.civil.Valid
  sec : secNo d.civil = 86400 * dayNo yr0 mo0 dy0 + 3600 * hr0 + 60 * mn0 + sec0
  yday : d.yday = dayOfYear d.year d.month d.day
  wday : WeekdayOf d.civil d.wday
  offset : d.offset = off
  isDst : d.isDst = dstOf off

theorem okDate_of {d : Date} (h : d.civil.Valid) (hy : 1900 ≤ d.year) : okDate d = true := by
  obtain ⟨h1, h2, h3, h4, h5, h6, h7, h8⟩ := h
  simp only [Date.civil] at *
  unfold okDate
  rw [monthdays_eq]
  simp only [Bool.and_eq_true, decide_eq_true_eq]
  omega

theorem normalizedate_ok {C : Clib} {yr0 : Int} {mo0 : Month} {dy0 hr0 mn0 sec0 : Int} {off : Option Int} {r : Date}
    (h : normalizedate C yr0 mo0 dy0 hr0 mn0 sec0 off = .ok r) :
    ∃ d, Norm yr0 mo0 dy0 hr0 mn0 sec0 off d ∧ (r = d ∨ (off = none ∧ 1970 ≤ d.year ∧ d.year ≤ 2037 ∧
      ∃ tm, dateToTmoz d = .ok tm ∧ tmozToDate (C.localtime (C.mktime tm)) none = .ok r)) := by
  unfold normalizedate at h
  obtain ⟨mn1, h1, h⟩ := bind_ok h
  obtain ⟨hr1, h2, h⟩ := bind_ok h
  obtain ⟨tdn, h3, h⟩ := bind_ok h
  obtain ⟨dayno, h4, h⟩ := bind_ok h
  obtain ⟨⟨year, month, day⟩, h5, h⟩ := bind_ok h
  simp only at h
  obtain ⟨w, h6, h⟩ := bind_ok h
  obtain ⟨yd, h7, h⟩ := bind_ok h
  have h1 := chk_ok h1
  have h2 := chk_ok h2
  have h3 := todaynumber_ok h3
  have h4 := chk_ok h4
  obtain ⟨h5a, h5b, h5c⟩ := fromdaynumber_ok h5
  have h6 := toweekday_ok h6
  have h7 := dayinyear_ok h7
  generalize hd : (⟨year, month, day, hr1 % 24, mn1 % 60, sec0 % 60, w, yd, dstOf off, off⟩ : Date) = d at h
  have hv : d.civil.Valid := by
    subst hd
    exact ⟨h5a, h5b, by simp only [Date.civil]; omega⟩
  have hn : Norm yr0 mo0 dy0 hr0 mn0 sec0 off d := by
    refine ⟨hv, ?_, ?_, ?_, ?_, ?_⟩
    · subst hd; simp only [secNo, Date.civil]; omega
    · subst hd; simp only; rw [dayOfYear_eq]; exact h7
    · rw [weekdayOf_iff hv]; subst hd; simp only [Date.civil]; omega
    · subst hd; rfl
    · subst hd; rfl
  refine ⟨d, hn, ?_⟩
  have hy : d.year = year := by subst hd; rfl
  by_cases hr : year < 1970 ∨ year > 2037
  · rw [if_pos hr] at h; left; cases h; rfl
  · rw [if_neg hr] at h
    cases off with
    | some t => left; simp only at h; cases h; rfl
    | none =>
      right
      simp only at h
      obtain ⟨tm, h8, h⟩ := bind_ok h
      exact ⟨rfl, by omega, by omega, tm, h8, h⟩

theorem dateToTmoz_ok {d : Date} {tm : Tm} (h : dateToTmoz d = .ok tm) : tm.For d.civil ∧
    tm.isdst = (match d.isDst with | some false => 0 | some true => 1 | none => -1) ∧ tm.wday = fromwday d.wday ∧
    tm.yday = d.yday := by
  unfold dateToTmoz at h
  split at h
  · obtain ⟨y, h1, h⟩ := bind_ok h
    have h1 := chk_ok h1
    cases h
    exact ⟨⟨h1, rfl, rfl, rfl, rfl, rfl⟩, rfl, rfl, rfl⟩
  · cases h

theorem dateToTmoz_total {d : Date} (h : d.civil.Valid) (hy : 1900 ≤ d.year) (hy' : d.year < 2 ^ 62) :
    ∃ tm, dateToTmoz d = .ok tm := by
  unfold dateToTmoz
  rw [if_pos (okDate_of h hy), chk_in (by omega) (by omega)]
  exact ⟨_, rfl⟩

theorem tmozToDate_ok {tm : Tm} {off : Option Int} {r : Date} (h : tmozToDate tm off = .ok r) : tm.For r.civil ∧
    tm.wday = fromwday r.wday ∧ tm.yday = r.yday ∧ r.offset = off := by
  unfold tmozToDate at h
  obtain ⟨y, h1, h⟩ := bind_ok h
  obtain ⟨m, h2, h⟩ := bind_ok h
  obtain ⟨w, h3, h⟩ := bind_ok h
  have h1 := chk_ok h1
  have h2 := tomonth_ok h2
  have h3 := toweekday_ok h3
  cases h
  exact ⟨⟨by simp only [Date.civil]; omega, h2, rfl, rfl, rfl, rfl⟩, h3, rfl, rfl⟩

theorem Tm.For.unique {tm : Tm} {a b : Civil} (ha : tm.For a) (hb : tm.For b) : a = b := by
  obtain ⟨h1, h2, h3, h4, h5, h6⟩ := ha
  obtain ⟨g1, g2, g3, g4, g5, g6⟩ := hb
  have hm := frommonth_inj (h2.symm.trans g2)
  have hy : a.year = b.year := by omega
  cases a; cases b
  simp only at *
  subst hy hm h3 h4 h5 h6
  simp [g3, g4, g5, g6]

theorem weekdayOf_unique {c : Civil} (hc : c.Valid) {w w' : Weekday} (h : WeekdayOf c w) (h' : WeekdayOf c w') : w = w' := by
  rw [weekdayOf_iff hc] at h h'
  exact fromwday_inj (h.trans h'.symm)

/-- the C library confirms the date -/
theorem tmozToDate_known {C : Clib} {d r : Date} {tm : Tm} (hd : d.civil.Valid) (hk : C.Knows d.civil)
    (h1 : dateToTmoz d = .ok tm) (h2 : tmozToDate (C.localtime (C.mktime tm)) none = .ok r) :
    r.civil = d.civil ∧ r.yday = dayOfYear d.year d.month d.day ∧ WeekdayOf d.civil r.wday ∧ r.offset = none := by
  obtain ⟨k1, k2, w, k3, k4⟩ := hk tm (dateToTmoz_ok h1).1
  obtain ⟨g1, g2, g3, g4⟩ := tmozToDate_ok h2
  refine ⟨g1.unique k1, by rw [← g3, k2]; rfl, ?_, g4⟩
  have : r.wday = w := fromwday_inj (g2.symm.trans k4)
  rw [this]; exact k3

/-- what `date` computes -/
theorem date_ok {C : Clib} {a : Arg} {r : Date} (h : date C a = .ok r) :
    0 ≤ a.year ∧ ∃ off, (match a.offset with
      | none => off = none
      | some t => off = some (if t ≤ 43200 then -t else 86400 - t) ∧ -2 ^ 62 ≤ (if t ≤ 43200 then -t else 86400 - t) ∧
          (if t ≤ 43200 then -t else 86400 - t) < 2 ^ 62) ∧
      normalizedate C a.year a.month (a.day + (a.offset.getD 0).tdiv 86400) a.hour a.minute a.second off = .ok r := by
  unfold date at h
  split at h
  · cases h
  · rename_i hy
    refine ⟨by omega, ?_⟩
    obtain ⟨⟨x, off⟩, h1, h⟩ := bind_ok h
    simp only at h
    obtain ⟨d, h2, h⟩ := bind_ok h
    have h2 := chk_ok h2
    subst h2
    cases ho : a.offset with
    | none =>
      rw [ho] at h1
      cases h1
      exact ⟨none, rfl, by simpa using h⟩
    | some t =>
      rw [ho] at h1
      simp only at h1
      obtain ⟨s, h3, h1⟩ := bind_ok h1
      cases h1
      have hs := chk_ok h3
      exact ⟨some s, ⟨by rw [hs], chk_range h3⟩, by simpa using h⟩

/-- the same, for a C library that knows the result -/
theorem date_norm {C : Clib} {a : Arg} {r : Date} (h : date C a = .ok r)
    (hC : a.offset = none → ∀ c, c.Valid → 1970 ≤ c.year → c.year ≤ 2037 →
      secNo c = 86400 * dayNo a.year a.month (a.day + (a.offset.getD 0).tdiv 86400) + 3600 * a.hour + 60 * a.minute + a.second → C.Knows c) :
    r.civil.Valid ∧
    secNo r.civil = 86400 * dayNo a.year a.month (a.day + (a.offset.getD 0).tdiv 86400) + 3600 * a.hour + 60 * a.minute + a.second ∧
    r.yday = dayOfYear r.year r.month r.day ∧ WeekdayOf r.civil r.wday := by
  obtain ⟨hy, off, hoff, hn⟩ := date_ok h
  obtain ⟨d, hN, hr⟩ := normalizedate_ok hn
  rcases hr with rfl | ⟨hoff', hy1, hy2, tm, h1, h2⟩
  · exact ⟨hN.valid, hN.sec, hN.yday, hN.wday⟩
  · subst hoff'
    have ho : a.offset = none := by
      cases ho : a.offset with
      | none => rfl
      | some t => rw [ho] at hoff; simp at hoff
    obtain ⟨k1, k2, k3, k4⟩ := tmozToDate_known hN.valid (hC ho d.civil hN.valid hy1 hy2 hN.sec) h1 h2
    have e1 : r.year = d.year := congrArg Civil.year k1
    have e2 : r.month = d.month := congrArg Civil.month k1
    have e3 : r.day = d.day := congrArg Civil.day k1
    refine ⟨by rw [k1]; exact hN.valid, by rw [k1]; exact hN.sec, by rw [k2, e1, e2, e3], by rw [k1]; exact k3⟩

/-- the first of a month is valid -/
theorem first_valid (y : Int) (m : Month) : (⟨y, m, 1, 0, 0, 0⟩ : Civil).Valid := by
  have := lp_range y
  refine ⟨by simp, ?_, by simp, by simp, by simp, by simp, by simp, by simp⟩
  simp only
  rw [lastDay_eq]
  cases m <;> simp [monthlength] <;> omega

theorem cum_range (y : Int) (m : Month) : 0 ≤ cum y m ∧ cum y m ≤ 335 := by
  have := lp_range y
  unfold cum
  cases m <;> simp [cum0, frommonth] <;> omega

theorem dayinyear_total {y : Int} {m : Month} {d : Int} (h : -2 ^ 61 ≤ d ∧ d ≤ 2 ^ 61) : dayinyear y m d = .ok (cum y m + d - 1) := by
  have e : ∃ r, dayinyear y m d = .ok r := by
    unfold dayinyear
    have hm : 0 ≤ frommonth m ∧ frommonth m ≤ 11 := by cases m <;> simp [frommonth]
    rw [chk_in (by omega) (by omega)]
    simp only [bind, Except.bind]
    rw [chk_in (by omega) (by omega)]
    simp only
    rw [chk_in (by split_ifs <;> omega) (by split_ifs <;> omega)]
    exact ⟨_, rfl⟩
  obtain ⟨r, hr⟩ := e
  rw [hr, dayinyear_ok hr]

theorem todaynumber_total {y : Int} {m : Month} {d : Int} (h : -2 ^ 60 ≤ d ∧ d ≤ 2 ^ 60) (hy : 0 ≤ y ∧ y ≤ 2 ^ 50) :
    todaynumber y m d = .ok (dayNo y m d) := by
  have e : ∃ r, todaynumber y m d = .ok r := by
    unfold todaynumber
    have := cum_range y m
    rw [chk_in (by omega) (by omega)]
    simp only [bind, Except.bind]
    rw [dayinyear_total (by omega)]
    simp only
    rw [chk_in (by omega) (by omega)]
    simp only
    rw [chk_in (by omega) (by omega)]
    simp only
    rw [chk_in (by omega) (by omega)]
    simp only
    rw [chk_in (by omega) (by omega)]
    simp only
    rw [chk_in (by omega) (by omega)]
    simp only
    rw [chk_in (by omega) (by omega)]
    exact ⟨_, rfl⟩
  obtain ⟨r, hr⟩ := e
  rw [hr, todaynumber_ok hr]

theorem lastDay_range (y : Int) (m : Month) : lastDay y m ≤ 31 := by
  have := lp_range y
  rw [lastDay_eq]; cases m <;> simp [monthlength]; omega

theorem normalizedate_total {C : Clib} {yr0 : Int} {mo0 : Month} {dy0 hr0 mn0 sec0 : Int} {off : Option Int}
    (hy : 0 ≤ yr0 ∧ yr0 ≤ 2 ^ 50) (hd : -2 ^ 51 ≤ dy0 ∧ dy0 ≤ 2 ^ 51) (hh : -2 ^ 50 ≤ hr0 ∧ hr0 ≤ 2 ^ 50)
    (hm : -2 ^ 50 ≤ mn0 ∧ mn0 ≤ 2 ^ 50) (hs : -2 ^ 50 ≤ sec0 ∧ sec0 ≤ 2 ^ 50)
    (hC : off = none → ∀ c, c.Valid → 1970 ≤ c.year → c.year ≤ 2037 →
      secNo c = 86400 * dayNo yr0 mo0 dy0 + 3600 * hr0 + 60 * mn0 + sec0 → C.Knows c) :
    ∃ r, normalizedate C yr0 mo0 dy0 hr0 mn0 sec0 off = .ok r := by
  have hdn : -2 ^ 52 ≤ dayNo yr0 mo0 dy0 ∧ dayNo yr0 mo0 dy0 ≤ 2 ^ 60 := by
    have := cum_range yr0 mo0
    unfold dayNo yearStart; omega
  unfold normalizedate
  rw [chk_in (by omega) (by omega)]
  simp only [bind, Except.bind]
  rw [chk_in (by omega) (by omega)]
  simp only
  rw [todaynumber_total (by omega) hy]
  simp only
  rw [chk_in (by omega) (by omega)]
  simp only
  generalize hmn : mn0 + sec0 / 60 = mn1
  generalize hhr : hr0 + mn1 / 60 = hr1
  generalize hdn' : dayNo yr0 mo0 dy0 + hr1 / 24 = dayno
  obtain ⟨y, m, d, h1, h2, h3, h4⟩ := fromdaynumber_spec (n := dayno) (by omega)
  rw [h1]
  simp only
  obtain ⟨w, hw, hw'⟩ := toweekday_in (n := dayno % 7) (by omega) (by omega)
  unfold weekday
  rw [hw]
  simp only
  have hld := lastDay_range y m
  rw [dayinyear_total (by omega)]
  simp only
  by_cases hr : y < 1970 ∨ y > 2037
  · rw [if_pos hr]; exact ⟨_, rfl⟩
  · rw [if_neg hr]
    cases off with
    | some t => exact ⟨_, rfl⟩
    | none =>
      simp only
      generalize hdd : (⟨y, m, d, hr1 % 24, mn1 % 60, sec0 % 60, w, cum y m + d - 1, dstOf none, none⟩ : Date) = dd
      have hv : dd.civil.Valid := by
        subst hdd
        exact ⟨h2, h3, by simp only [Date.civil]; omega⟩
      have hyy : dd.year = y := by subst hdd; rfl
      obtain ⟨tm, htm⟩ := dateToTmoz_total hv (by omega) (by omega)
      rw [htm]
      simp only
      have hs : secNo dd.civil = 86400 * dayNo yr0 mo0 dy0 + 3600 * hr0 + 60 * mn0 + sec0 := by
        subst hdd; simp only [secNo, Date.civil]; omega
      obtain ⟨k1, k2, w', k3, k4⟩ := hC rfl dd.civil hv (by simp [Date.civil]; omega) (by simp [Date.civil]; omega) hs tm
        (dateToTmoz_ok htm).1
      obtain ⟨k5, k6, k7, k8, k9, k10⟩ := k1
      unfold tmozToDate
      have : (C.localtime (C.mktime tm)).year + 1900 = y := by
        have : dd.civil.year = y := hyy
        omega
      rw [this, chk_in (by omega) (by omega), k6, tomonth_frommonth, k4, toweekday_fromwday]
      exact ⟨_, rfl⟩

end Mosml.Dates
