import Verif.Dates.Spec
import Verif.Util

namespace Mosml.Dates

theorem bind_ok {α β : Type} {x : R α} {f : α → R β} {y : β} (h : (x >>= f) = .ok y) : ∃ a, x = .ok a ∧ f a = .ok y := by
  cases x with
  | error e => cases h
  | ok a => exact ⟨a, rfl, h⟩

theorem chk_ok {x y : Int} (h : chk x = .ok y) : y = x := by
  unfold chk at h
  split at h
  · cases h; rfl
  · cases h

theorem chk_range {x y : Int} (h : chk x = .ok y) : -2 ^ 62 ≤ x ∧ x < 2 ^ 62 := by
  unfold chk at h
  split at h
  · assumption
  · cases h

theorem chk_in {x : Int} (h1 : -2 ^ 62 ≤ x) (h2 : x < 2 ^ 62) : chk x = .ok x := by
  unfold chk; rw [if_pos ⟨h1, h2⟩]

theorem leap_iff (y : Int) : leapyear y = true ↔ IsLeap y := by
  unfold leapyear IsLeap
  simp only [Bool.or_eq_true, Bool.and_eq_true, beq_iff_eq, bne_iff_ne, ne_eq, Int.dvd_iff_emod_eq_zero]

theorem monthdays_eq (y : Int) (m : Month) : monthdays y m = lastDay y m := by
  unfold monthdays lastDay
  by_cases h : IsLeap y
  · have := (leap_iff y).mpr h; cases m <;> simp [this, h, monthlength]
  · have : leapyear y = false := by
      cases hl : leapyear y with
      | false => rfl
      | true => exact absurd ((leap_iff y).mp hl) h
    cases m <;> simp [this, h, monthlength]

/-- 1 in a leap year -/
def lp (y : Int) : Int := if IsLeap y then 1 else 0

/-- days before the month in a common year -/
def cum0 : Month → Int
  | .jan => 0 | .feb => 31 | .mar => 59 | .apr => 90 | .may => 120 | .jun => 151
  | .jul => 181 | .aug => 212 | .sep => 243 | .oct => 273 | .nov => 304 | .dec => 334

/-- days before the month -/
def cum (y : Int) (m : Month) : Int := cum0 m + (if frommonth m > 1 then lp y else 0)

theorem dayOfYear_eq (y : Int) (m : Month) (d : Int) : dayOfYear y m d = cum y m + d - 1 := by
  unfold dayOfYear cum lp
  by_cases h : IsLeap y <;> cases m <;> simp [monthsBefore, lastDay, h, cum0, frommonth] <;> omega

theorem dayinyear_ok {y : Int} {m : Month} {d r : Int} (h : dayinyear y m d = .ok r) : r = cum y m + d - 1 := by
  unfold dayinyear at h
  obtain ⟨a, h1, h⟩ := bind_ok h
  obtain ⟨b, h2, h⟩ := bind_ok h
  have h1 := chk_ok h1
  have h2 := chk_ok h2
  have h := chk_ok h
  rw [h, h2, h1]
  unfold cum lp
  by_cases hl : IsLeap y
  · have := (leap_iff y).mpr hl
    cases m <;> simp [frommonth, cum0, this, hl] <;> omega
  · have : leapyear y = false := by
      cases hl' : leapyear y with
      | false => rfl
      | true => exact absurd ((leap_iff y).mp hl') hl
    cases m <;> simp [frommonth, cum0, this, hl] <;> omega

/-- number of days before the first of January, counted from an imagined day -/
def yearStart (y : Int) : Int := 365 * (y - 1) + (y - 1) / 4 - (y - 1) / 100 + (y - 1) / 400

/-- day number -/
def dayNo (y : Int) (m : Month) (d : Int) : Int := yearStart y + cum y m + d

theorem todaynumber_ok {y : Int} {m : Month} {d r : Int} (h : todaynumber y m d = .ok r) : r = dayNo y m d := by
  unfold todaynumber at h
  obtain ⟨p, h1, h⟩ := bind_ok h
  obtain ⟨a, h2, h⟩ := bind_ok h
  obtain ⟨b, h3, h⟩ := bind_ok h
  obtain ⟨c, h4, h⟩ := bind_ok h
  obtain ⟨e, h5, h⟩ := bind_ok h
  obtain ⟨f, h6, h⟩ := bind_ok h
  obtain ⟨g, h7, h⟩ := bind_ok h
  have h1 := chk_ok h1
  have h2 := dayinyear_ok h2
  have h3 := chk_ok h3
  have h4 := chk_ok h4
  have h5 := chk_ok h5
  have h6 := chk_ok h6
  have h7 := chk_ok h7
  have h := chk_ok h
  unfold dayNo yearStart
  subst h1 h2 h3 h4 h5 h6 h7 h
  omega

theorem lp_cases (y : Int) : (lp y = 1 ∧ ((y % 4 = 0 ∧ y % 100 ≠ 0) ∨ y % 400 = 0)) ∨
    (lp y = 0 ∧ ¬((y % 4 = 0 ∧ y % 100 ≠ 0) ∨ y % 400 = 0)) := by
  unfold lp
  have : IsLeap y ↔ ((y % 4 = 0 ∧ y % 100 ≠ 0) ∨ y % 400 = 0) := by
    unfold IsLeap; simp only [Int.dvd_iff_emod_eq_zero, ne_eq]
  by_cases h : IsLeap y
  · rw [if_pos h]; exact Or.inl ⟨rfl, this.mp h⟩
  · rw [if_neg h]; exact Or.inr ⟨rfl, fun h' => h (this.mpr h')⟩

theorem yearStart_succ (y : Int) : yearStart (y + 1) = yearStart y + 365 + lp y := by
  unfold yearStart
  rcases lp_cases y with ⟨h, h'⟩ | ⟨h, h'⟩ <;> rw [h] <;> omega

theorem lp_range (y : Int) : 0 ≤ lp y ∧ lp y ≤ 1 := by
  rcases lp_cases y with ⟨h, -⟩ | ⟨h, -⟩ <;> omega

theorem yearStart_mono {y y' : Int} (h : y < y') : yearStart y + 365 + lp y ≤ yearStart y' := by
  have e : yearStart (y + 1) ≤ yearStart y' := by unfold yearStart; omega
  rw [yearStart_succ] at e; exact e

theorem lastDay_eq (y : Int) (m : Month) : lastDay y m = monthlength m + (if m = .feb then lp y else 0) := by
  unfold lastDay lp
  by_cases h : IsLeap y <;> cases m <;> simp [h, monthlength]

/-- a day within its year -/
theorem dayNo_range {y : Int} {m : Month} {d : Int} (h1 : 1 ≤ d) (h2 : d ≤ lastDay y m) :
    yearStart y + 1 ≤ dayNo y m d ∧ dayNo y m d ≤ yearStart y + 365 + lp y := by
  have := lp_range y
  rw [lastDay_eq] at h2
  unfold dayNo cum
  cases m <;> simp [cum0, frommonth, monthlength] at h2 ⊢ <;> omega

/-- dates are ordered like their numbers -/
theorem dayNo_lt {y y' : Int} {m m' : Month} {d d' : Int} (h1 : 1 ≤ d) (h2 : d ≤ lastDay y m) (h1' : 1 ≤ d')
    (h2' : d' ≤ lastDay y' m')
    (h : y < y' ∨ (y = y' ∧ (frommonth m < frommonth m' ∨ (m = m' ∧ d < d')))) : dayNo y m d < dayNo y' m' d' := by
  rcases h with h | ⟨rfl, h | ⟨rfl, h⟩⟩
  · have := dayNo_range h1 h2
    have := dayNo_range h1' h2'
    have := yearStart_mono h
    omega
  · have := lp_range y
    rw [lastDay_eq] at h2
    unfold dayNo cum
    cases m <;> cases m' <;> simp [cum0, frommonth, monthlength] at h h2 ⊢ <;> omega
  · unfold dayNo; omega

theorem frommonth_inj {m m' : Month} (h : frommonth m = frommonth m') : m = m' := by
  cases m <;> cases m' <;> first | rfl | (exact absurd h (by decide))

theorem tomonth_ok {n : Int} {m : Month} (h : tomonth n = .ok m) : n = frommonth m := by
  unfold tomonth at h
  by_cases h0 : 0 ≤ n ∧ n ≤ 11
  · have : n = 0 ∨ n = 1 ∨ n = 2 ∨ n = 3 ∨ n = 4 ∨ n = 5 ∨ n = 6 ∨ n = 7 ∨ n = 8 ∨ n = 9 ∨ n = 10 ∨ n = 11 := by omega
    rcases this with rfl | rfl | rfl | rfl | rfl | rfl | rfl | rfl | rfl | rfl | rfl | rfl <;> simp at h <;> subst h <;> rfl
  · have : n ≠ 0 ∧ n ≠ 1 ∧ n ≠ 2 ∧ n ≠ 3 ∧ n ≠ 4 ∧ n ≠ 5 ∧ n ≠ 6 ∧ n ≠ 7 ∧ n ≠ 8 ∧ n ≠ 9 ∧ n ≠ 10 ∧ n ≠ 11 := by omega
    simp [this] at h

theorem tomonth_frommonth (m : Month) : tomonth (frommonth m) = .ok m := by cases m <;> rfl

theorem toweekday_ok {n : Int} {w : Weekday} (h : toweekday n = .ok w) : n = fromwday w := by
  unfold toweekday at h
  by_cases h0 : 0 ≤ n ∧ n ≤ 6
  · have : n = 0 ∨ n = 1 ∨ n = 2 ∨ n = 3 ∨ n = 4 ∨ n = 5 ∨ n = 6 := by omega
    rcases this with rfl | rfl | rfl | rfl | rfl | rfl | rfl <;> simp at h <;> subst h <;> rfl
  · have : n ≠ 0 ∧ n ≠ 1 ∧ n ≠ 2 ∧ n ≠ 3 ∧ n ≠ 4 ∧ n ≠ 5 ∧ n ≠ 6 := by omega
    simp [this] at h

theorem toweekday_fromwday (w : Weekday) : toweekday (fromwday w) = .ok w := by cases w <;> rfl

theorem tomonth_in {n : Int} (h0 : 0 ≤ n) (h1 : n ≤ 11) : ∃ m, tomonth n = .ok m ∧ n = frommonth m := by
  have : n = 0 ∨ n = 1 ∨ n = 2 ∨ n = 3 ∨ n = 4 ∨ n = 5 ∨ n = 6 ∨ n = 7 ∨ n = 8 ∨ n = 9 ∨ n = 10 ∨ n = 11 := by omega
  rcases this with rfl | rfl | rfl | rfl | rfl | rfl | rfl | rfl | rfl | rfl | rfl | rfl
  · exact ⟨.jan, rfl, rfl⟩
  · exact ⟨.feb, rfl, rfl⟩
  · exact ⟨.mar, rfl, rfl⟩
  · exact ⟨.apr, rfl, rfl⟩
  · exact ⟨.may, rfl, rfl⟩
  · exact ⟨.jun, rfl, rfl⟩
  · exact ⟨.jul, rfl, rfl⟩
  · exact ⟨.aug, rfl, rfl⟩
  · exact ⟨.sep, rfl, rfl⟩
  · exact ⟨.oct, rfl, rfl⟩
  · exact ⟨.nov, rfl, rfl⟩
  · exact ⟨.dec, rfl, rfl⟩

theorem toweekday_in {n : Int} (h0 : 0 ≤ n) (h1 : n ≤ 6) : ∃ w, toweekday n = .ok w ∧ n = fromwday w := by
  have : n = 0 ∨ n = 1 ∨ n = 2 ∨ n = 3 ∨ n = 4 ∨ n = 5 ∨ n = 6 := by omega
  rcases this with rfl | rfl | rfl | rfl | rfl | rfl | rfl
  · exact ⟨.sun, rfl, rfl⟩
  · exact ⟨.mon, rfl, rfl⟩
  · exact ⟨.tue, rfl, rfl⟩
  · exact ⟨.wed, rfl, rfl⟩
  · exact ⟨.thu, rfl, rfl⟩
  · exact ⟨.fri, rfl, rfl⟩
  · exact ⟨.sat, rfl, rfl⟩

/-- the loop over months -/
theorem monthLoop_spec (y : Int) : ∀ (k : Nat) (i : Int) (d : Int) (m : Month), i = frommonth m → (k : Int) + i = 13 →
    1 ≤ d → cum y m + d ≤ 365 + lp y → ∃ m' d', monthLoop y k i d = .ok (y, m', d') ∧ 1 ≤ d' ∧ d' ≤ lastDay y m' ∧
      cum y m' + d' = cum y m + d := by
  intro k
  induction k with
  | zero => intro i d m hi hk; cases m <;> simp [frommonth] at hi <;> omega
  | succ k ih =>
    intro i d m hi hk hd hc
    subst hi
    simp only [monthLoop, tomonth_frommonth, bind, Except.bind]
    rw [monthdays_eq]
    by_cases hlt : lastDay y m < d
    · rw [if_pos hlt]
      have hlp := lp_range y
      rw [lastDay_eq] at hlt ⊢
      cases m with
      | dec => exfalso; simp [cum, cum0, frommonth, monthlength] at hlt hc; omega
      | jan =>
        obtain ⟨m', d', h1, h2, h3, h4⟩ := ih _ (d - 31) .feb rfl (by simp [frommonth] at hk ⊢; omega) (by simp [monthlength] at hlt; omega)
          (by simp [cum, cum0, frommonth] at hc ⊢; omega)
        exact ⟨m', d', h1, h2, h3, by rw [h4]; simp [cum, cum0, frommonth]⟩
      | feb =>
        obtain ⟨m', d', h1, h2, h3, h4⟩ := ih _ (d - (28 + lp y)) .mar rfl (by simp [frommonth] at hk ⊢; omega) (by simp [monthlength] at hlt; omega)
          (by simp [cum, cum0, frommonth] at hc ⊢; omega)
        exact ⟨m', d', h1, h2, h3, by rw [h4]; simp [cum, cum0, frommonth]; omega⟩
      | mar =>
        obtain ⟨m', d', h1, h2, h3, h4⟩ := ih _ (d - 31) .apr rfl (by simp [frommonth] at hk ⊢; omega) (by simp [monthlength] at hlt; omega)
          (by simp [cum, cum0, frommonth] at hc ⊢; omega)
        exact ⟨m', d', h1, h2, h3, by rw [h4]; simp [cum, cum0, frommonth]; omega⟩
      | apr =>
        obtain ⟨m', d', h1, h2, h3, h4⟩ := ih _ (d - 30) .may rfl (by simp [frommonth] at hk ⊢; omega) (by simp [monthlength] at hlt; omega)
          (by simp [cum, cum0, frommonth] at hc ⊢; omega)
        exact ⟨m', d', h1, h2, h3, by rw [h4]; simp [cum, cum0, frommonth]; omega⟩
      | may =>
        obtain ⟨m', d', h1, h2, h3, h4⟩ := ih _ (d - 31) .jun rfl (by simp [frommonth] at hk ⊢; omega) (by simp [monthlength] at hlt; omega)
          (by simp [cum, cum0, frommonth] at hc ⊢; omega)
        exact ⟨m', d', h1, h2, h3, by rw [h4]; simp [cum, cum0, frommonth]; omega⟩
      | jun =>
        obtain ⟨m', d', h1, h2, h3, h4⟩ := ih _ (d - 30) .jul rfl (by simp [frommonth] at hk ⊢; omega) (by simp [monthlength] at hlt; omega)
          (by simp [cum, cum0, frommonth] at hc ⊢; omega)
        exact ⟨m', d', h1, h2, h3, by rw [h4]; simp [cum, cum0, frommonth]; omega⟩
      | jul =>
        obtain ⟨m', d', h1, h2, h3, h4⟩ := ih _ (d - 31) .aug rfl (by simp [frommonth] at hk ⊢; omega) (by simp [monthlength] at hlt; omega)
          (by simp [cum, cum0, frommonth] at hc ⊢; omega)
        exact ⟨m', d', h1, h2, h3, by rw [h4]; simp [cum, cum0, frommonth]; omega⟩
      | aug =>
        obtain ⟨m', d', h1, h2, h3, h4⟩ := ih _ (d - 31) .sep rfl (by simp [frommonth] at hk ⊢; omega) (by simp [monthlength] at hlt; omega)
          (by simp [cum, cum0, frommonth] at hc ⊢; omega)
        exact ⟨m', d', h1, h2, h3, by rw [h4]; simp [cum, cum0, frommonth]; omega⟩
      | sep =>
        obtain ⟨m', d', h1, h2, h3, h4⟩ := ih _ (d - 30) .oct rfl (by simp [frommonth] at hk ⊢; omega) (by simp [monthlength] at hlt; omega)
          (by simp [cum, cum0, frommonth] at hc ⊢; omega)
        exact ⟨m', d', h1, h2, h3, by rw [h4]; simp [cum, cum0, frommonth]; omega⟩
      | oct =>
        obtain ⟨m', d', h1, h2, h3, h4⟩ := ih _ (d - 31) .nov rfl (by simp [frommonth] at hk ⊢; omega) (by simp [monthlength] at hlt; omega)
          (by simp [cum, cum0, frommonth] at hc ⊢; omega)
        exact ⟨m', d', h1, h2, h3, by rw [h4]; simp [cum, cum0, frommonth]; omega⟩
      | nov =>
        obtain ⟨m', d', h1, h2, h3, h4⟩ := ih _ (d - 30) .dec rfl (by simp [frommonth] at hk ⊢; omega) (by simp [monthlength] at hlt; omega)
          (by simp [cum, cum0, frommonth] at hc ⊢; omega)
        exact ⟨m', d', h1, h2, h3, by rw [h4]; simp [cum, cum0, frommonth]; omega⟩
    · rw [if_neg hlt]
      exact ⟨m, d, rfl, hd, by omega, rfl⟩

/-- day numbers are decoded exactly -/
theorem fromdaynumber_spec {n : Int} (h : -2 ^ 62 ≤ n - 1 ∧ n - 1 < 2 ^ 62) : ∃ y m d, fromdaynumber n = .ok (y, m, d) ∧
    1 ≤ d ∧ d ≤ lastDay y m ∧ dayNo y m d = n := by
  unfold fromdaynumber
  rw [chk_in h.1 h.2]
  simp only [bind, Except.bind]
  generalize hn400 : (n - 1) / 146097 = n400
  generalize hd1 : (n - 1) % 146097 = d1
  generalize hn100 : d1 / 36524 = n100
  generalize hd2 : d1 % 36524 = d2
  generalize hn4 : d2 / 1461 = n4
  generalize hd3 : d2 % 1461 = d3
  generalize hn1 : d3 / 365 = n1
  generalize hr : d3 % 365 = r
  generalize hy : 400 * n400 + 100 * n100 + n4 * 4 + n1 + 1 = y
  have b1 : 0 ≤ d1 ∧ d1 < 146097 ∧ n - 1 = 146097 * n400 + d1 := by omega
  have b2 : 0 ≤ d2 ∧ d2 < 36524 ∧ d1 = 36524 * n100 + d2 := by omega
  have b3 : 0 ≤ d3 ∧ d3 < 1461 ∧ d2 = 1461 * n4 + d3 := by omega
  have b4 : 0 ≤ r ∧ r < 365 ∧ d3 = 365 * n1 + r := by omega
  clear hn400 hd1 hn100 hd2 hn4 hd3 hn1 hr
  by_cases hc : n100 = 4 ∨ n1 = 4
  · rw [if_pos hc]
    refine ⟨_, _, _, rfl, by omega, by simp [lastDay], ?_⟩
    have hl : lp (y - 1) = 1 := by
      rcases lp_cases (y - 1) with ⟨h, -⟩ | ⟨-, h'⟩
      · exact h
      · exfalso; apply h'; omega
    have e : dayNo (y - 1) .dec 31 = yearStart y := by
      have := yearStart_succ (y - 1)
      rw [Int.sub_add_cancel] at this
      unfold dayNo cum
      simp [cum0, frommonth]
      omega
    rw [e]
    unfold yearStart
    rcases hc with hc | hc
    · have e1 : y - 1 = 400 * n400 + 400 := by omega
      omega
    · have c1 : 0 ≤ n100 ∧ n100 ≤ 3 ∧ 0 ≤ n4 ∧ n4 ≤ 23 ∧ r = 0 := by omega
      have e1 : (y - 1) / 4 = 100 * n400 + 25 * n100 + n4 + 1 := by omega
      have e2 : (y - 1) / 100 = 4 * n400 + n100 := by omega
      have e3 : (y - 1) / 400 = n400 := by omega
      rw [e1, e2, e3]
      omega
  · rw [if_neg hc]
    obtain ⟨m', d', h1, h2, h3, h4⟩ := monthLoop_spec y 13 0 (1 + r) .jan rfl (by omega) (by omega)
      (by have := lp_range y; simp [cum, cum0, frommonth]; omega)
    refine ⟨_, _, _, h1, h2, h3, ?_⟩
    have cj : cum y .jan = 0 := by simp [cum, cum0, frommonth]
    rw [cj] at h4
    have c1 : 0 ≤ n100 ∧ n100 ≤ 3 ∧ 0 ≤ n4 ∧ n4 ≤ 24 ∧ 0 ≤ n1 ∧ n1 ≤ 3 := by omega
    have e1 : (y - 1) / 4 = 100 * n400 + 25 * n100 + n4 := by omega
    have e2 : (y - 1) / 100 = 4 * n400 + n100 := by omega
    have e3 : (y - 1) / 400 = n400 := by omega
    unfold dayNo yearStart
    rw [e1, e2, e3]
    omega

theorem fromdaynumber_ok {n y d : Int} {m : Month} (h : fromdaynumber n = .ok (y, m, d)) :
    1 ≤ d ∧ d ≤ lastDay y m ∧ dayNo y m d = n := by
  by_cases hr : -2 ^ 62 ≤ n - 1 ∧ n - 1 < 2 ^ 62
  · obtain ⟨y', m', d', h', h1, h2, h3⟩ := fromdaynumber_spec hr
    rw [h] at h'
    cases h'
    exact ⟨h1, h2, h3⟩
  · unfold fromdaynumber chk at h
    rw [if_neg hr] at h
    cases h

/-! ### Seconds -/

/-- the second's number -/
def secNo (c : Civil) : Int := 86400 * dayNo c.year c.month c.day + 3600 * c.hour + 60 * c.minute + c.second

theorem secNo_nextDay {c : Civil} (h : c.Valid) : secNo c.nextDay = 86400 * (dayNo c.year c.month c.day + 1) ∧ c.nextDay.Valid := by
  obtain ⟨y, m, d, hh, mi, s⟩ := c
  obtain ⟨h1, h2, -⟩ := h
  simp only at h1 h2
  unfold Civil.nextDay
  simp only
  by_cases hd : d < lastDay y m
  · rw [if_pos hd]
    refine ⟨by simp [secNo, dayNo]; omega, ?_⟩
    refine ⟨by simp only; omega, by simp only; omega, ?_⟩; simp
  · rw [if_neg hd]
    have hd' : d = lastDay y m := by omega
    rw [lastDay_eq] at hd'
    have := lp_range y
    have := yearStart_succ y
    refine ⟨?_, ?_⟩
    · cases m <;> simp [Month.succ, secNo, dayNo, cum, cum0, frommonth, monthlength] at hd' ⊢ <;> omega
    · cases m <;> simp [Month.succ, Civil.Valid, lastDay] <;> split_ifs <;> omega

theorem tick_ok {c : Civil} (h : c.Valid) : secNo c.tick = secNo c + 1 ∧ c.tick.Valid := by
  have hn := secNo_nextDay h
  obtain ⟨h1, h2, h3, h4, h5, h6, h7, h8⟩ := h
  unfold Civil.tick
  by_cases a : c.second < 59
  · rw [if_pos a]; exact ⟨by simp [secNo]; omega, h1, h2, h3, h4, h5, h6, by simp only; omega, by simp only; omega⟩
  · rw [if_neg a]
    by_cases b : c.minute < 59
    · rw [if_pos b]; exact ⟨by simp [secNo]; omega, h1, h2, h3, h4, by simp only; omega, by simp only; omega, by simp, by simp⟩
    · rw [if_neg b]
      by_cases e : c.hour < 23
      · rw [if_pos e]; exact ⟨by simp [secNo]; omega, h1, h2, by simp only; omega, by simp only; omega, by simp, by simp, by simp, by simp⟩
      · rw [if_neg e]
        refine ⟨?_, hn.2⟩
        rw [hn.1]; unfold secNo; omega

theorem ticks_ok (k : Nat) {c : Civil} (h : c.Valid) : secNo (Civil.tick^[k] c) = secNo c + k ∧ (Civil.tick^[k] c).Valid := by
  induction k generalizing c with
  | zero => exact ⟨by simp, h⟩
  | succ k ih =>
    obtain ⟨h1, h2⟩ := tick_ok h
    obtain ⟨h3, h4⟩ := ih h2
    rw [Function.iterate_succ_apply]
    exact ⟨by rw [h3, h1]; push_cast; omega, h4⟩

/-- order of valid dates -/
def Civil.Before (a b : Civil) : Prop :=
  a.year < b.year ∨ (a.year = b.year ∧ (frommonth a.month < frommonth b.month ∨ (a.month = b.month ∧ (a.day < b.day ∨
    (a.day = b.day ∧ (a.hour < b.hour ∨ (a.hour = b.hour ∧ (a.minute < b.minute ∨ (a.minute = b.minute ∧
      a.second < b.second)))))))))

theorem before_secNo {a b : Civil} (ha : a.Valid) (hb : b.Valid) (h : a.Before b) : secNo a < secNo b := by
  obtain ⟨a1, a2, a3, a4, a5, a6, a7, a8⟩ := ha
  obtain ⟨b1, b2, b3, b4, b5, b6, b7, b8⟩ := hb
  have key := dayNo_lt a1 a2 b1 b2
  unfold secNo
  rcases h with h | ⟨hy, h | ⟨hm, h | ⟨hd, h⟩⟩⟩
  · have := key (Or.inl h); omega
  · have := key (Or.inr ⟨hy, Or.inl h⟩); omega
  · have := key (Or.inr ⟨hy, Or.inr ⟨hm, h⟩⟩); omega
  · have : dayNo a.year a.month a.day = dayNo b.year b.month b.day := by rw [hy, hm, hd]
    omega

theorem month_eq_iff (m m' : Month) : m = m' ↔ frommonth m = frommonth m' := ⟨fun h => h ▸ rfl, frommonth_inj⟩

theorem before_total (a b : Civil) : a.Before b ∨ a = b ∨ b.Before a := by
  have e : a = b ↔ a.year = b.year ∧ frommonth a.month = frommonth b.month ∧ a.day = b.day ∧ a.hour = b.hour ∧
      a.minute = b.minute ∧ a.second = b.second := by
    constructor
    · rintro rfl; simp
    · rintro ⟨h1, h2, h3, h4, h5, h6⟩
      have h2 := frommonth_inj h2
      cases a; cases b; simp only at *; subst h1 h2 h3 h4 h5 h6; rfl
  rw [e]
  unfold Civil.Before
  simp only [month_eq_iff]
  omega

theorem secNo_inj {a b : Civil} (ha : a.Valid) (hb : b.Valid) (h : secNo a = secNo b) : a = b := by
  rcases before_total a b with h' | h' | h'
  · have := before_secNo ha hb h'; omega
  · exact h'
  · have := before_secNo hb ha h'; omega

/-- being later is a matter of numbers -/
theorem later_iff {a b : Civil} (ha : a.Valid) (hb : b.Valid) (n : Int) : Later n a b ↔ secNo b = secNo a + n := by
  unfold Later
  by_cases hn : 0 ≤ n
  · rw [if_pos hn]
    have hk := ticks_ok n.toNat ha
    constructor
    · intro h; rw [← h, hk.1]; omega
    · intro h; exact secNo_inj hk.2 hb (by rw [hk.1, h]; omega)
  · rw [if_neg hn]
    have hk := ticks_ok (-n).toNat hb
    constructor
    · intro h; rw [← h, hk.1]; omega
    · intro h; exact secNo_inj hk.2 ha (by rw [hk.1, h]; omega)

/-- every second has a date -/
theorem secNo_surj (n : Int) (h : -2 ^ 61 ≤ n / 86400 ∧ n / 86400 < 2 ^ 61) : ∃ c : Civil, c.Valid ∧ secNo c = n := by
  obtain ⟨y, m, d, -, h1, h2, h3⟩ := fromdaynumber_spec (n := n / 86400) (by omega)
  refine ⟨⟨y, m, d, n % 86400 / 3600, n % 3600 / 60, n % 60⟩, ⟨h1, h2, ?_⟩, ?_⟩
  · simp only; omega
  · simp only [secNo, h3]; omega

/-! ### Weekdays -/

theorem fromwday_range (w : Weekday) : 0 ≤ fromwday w ∧ fromwday w ≤ 6 := by cases w <;> decide

theorem fromwday_inj {w w' : Weekday} (h : fromwday w = fromwday w') : w = w' := by
  cases w <;> cases w' <;> first | rfl | (exact absurd h (by decide))

theorem fromwday_succ (w : Weekday) : fromwday w.succ = (fromwday w + 1) % 7 := by cases w <;> decide

theorem fromwday_iter (k : Nat) (w : Weekday) : fromwday (Weekday.succ^[k] w) = (fromwday w + k) % 7 := by
  induction k generalizing w with
  | zero => have := fromwday_range w; simp; omega
  | succ k ih => rw [Function.iterate_succ_apply, ih, fromwday_succ]; push_cast; omega

theorem daysOn_iff (n : Int) (w w' : Weekday) : DaysOn n w w' ↔ fromwday w' = (fromwday w + n) % 7 := by
  unfold DaysOn
  have := fromwday_range w
  have := fromwday_range w'
  by_cases hn : 0 ≤ n
  · rw [if_pos hn]
    have hk := fromwday_iter n.toNat w
    constructor
    · intro h; rw [← h, hk]; omega
    · intro h; apply fromwday_inj; rw [hk, h]; omega
  · rw [if_neg hn]
    have hk := fromwday_iter (-n).toNat w'
    constructor
    · intro h; rw [← h, hk]; omega
    · intro h; apply fromwday_inj; rw [hk, h]; omega

end Mosml.Dates
