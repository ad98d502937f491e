import Verif.Dates.Model
import Mathlib.Logic.Function.Iterate

/-! What a date is, said without arithmetic on day numbers: the calendar is what one gets by letting the clock tick. -/

namespace Mosml.Dates

/-- the year, month, day, hour, minute and second on the wall -/
structure Civil where
  year : Int
  month : Month
  day : Int
  hour : Int
  minute : Int
  second : Int
  deriving DecidableEq, Repr

/-- the Gregorian rule -/
def IsLeap (y : Int) : Prop := (4 ∣ y ∧ ¬ 100 ∣ y) ∨ 400 ∣ y

instance (y : Int) : Decidable (IsLeap y) := by unfold IsLeap; infer_instance

/-- thirty days has September, April, June and November ... -/
def lastDay (y : Int) : Month → Int
  | .sep | .apr | .jun | .nov => 30
  | .feb => if IsLeap y then 29 else 28
  | _ => 31

/-- a date that exists -/
def Civil.Valid (c : Civil) : Prop :=
  1 ≤ c.day ∧ c.day ≤ lastDay c.year c.month ∧ 0 ≤ c.hour ∧ c.hour < 24 ∧ 0 ≤ c.minute ∧ c.minute < 60 ∧
  0 ≤ c.second ∧ c.second < 60

instance (c : Civil) : Decidable c.Valid := by unfold Civil.Valid; infer_instance

/-- the month after, `none` after December -/
def Month.succ : Month → Option Month
  | .jan => some .feb | .feb => some .mar | .mar => some .apr | .apr => some .may | .may => some .jun
  | .jun => some .jul | .jul => some .aug | .aug => some .sep | .sep => some .oct | .oct => some .nov
  | .nov => some .dec | .dec => none

/-- midnight at the beginning of the next day -/
def Civil.nextDay (c : Civil) : Civil :=
  if c.day < lastDay c.year c.month then ⟨c.year, c.month, c.day + 1, 0, 0, 0⟩
  else match c.month.succ with
    | some m => ⟨c.year, m, 1, 0, 0, 0⟩
    | none => ⟨c.year + 1, .jan, 1, 0, 0, 0⟩

/-- one second later -/
def Civil.tick (c : Civil) : Civil :=
  if c.second < 59 then { c with second := c.second + 1 }
  else if c.minute < 59 then { c with minute := c.minute + 1, second := 0 }
  else if c.hour < 23 then { c with hour := c.hour + 1, minute := 0, second := 0 }
  else c.nextDay

/-- `b` is `n` seconds after `a`, or `-n` seconds before it -/
def Later (n : Int) (a b : Civil) : Prop :=
  if 0 ≤ n then Civil.tick^[n.toNat] a = b else Civil.tick^[(-n).toNat] b = a

/-- the days of a week, one after the other -/
def Weekday.succ : Weekday → Weekday
  | .mon => .tue | .tue => .wed | .wed => .thu | .thu => .fri | .fri => .sat | .sat => .sun | .sun => .mon

/-- the day of the week `n` days after (before) `w` is `w'` -/
def DaysOn (n : Int) (w w' : Weekday) : Prop :=
  if 0 ≤ n then Weekday.succ^[n.toNat] w = w' else Weekday.succ^[(-n).toNat] w' = w

/-- the first second of 1970, a Thursday -/
def epoch : Civil := ⟨1970, .jan, 1, 0, 0, 0⟩

/-- the months before the given one -/
def monthsBefore : Month → List Month
  | .jan => [] | .feb => [.jan] | .mar => [.jan, .feb] | .apr => [.jan, .feb, .mar]
  | .may => [.jan, .feb, .mar, .apr] | .jun => [.jan, .feb, .mar, .apr, .may]
  | .jul => [.jan, .feb, .mar, .apr, .may, .jun] | .aug => [.jan, .feb, .mar, .apr, .may, .jun, .jul]
  | .sep => [.jan, .feb, .mar, .apr, .may, .jun, .jul, .aug]
  | .oct => [.jan, .feb, .mar, .apr, .may, .jun, .jul, .aug, .sep]
  | .nov => [.jan, .feb, .mar, .apr, .may, .jun, .jul, .aug, .sep, .oct]
  | .dec => [.jan, .feb, .mar, .apr, .may, .jun, .jul, .aug, .sep, .oct, .nov]

/-- the number of days of the year before the given day -/
def dayOfYear (y : Int) (m : Month) (d : Int) : Int := ((monthsBefore m).map (lastDay y)).sum + (d - 1)

/-- what the clock on the wall shows -/
def Date.civil (d : Date) : Civil := ⟨d.year, d.month, d.day, d.hour, d.minute, d.second⟩

/-- `w` is the day of the week of `c`, reckoned from the epoch -/
def WeekdayOf (c : Civil) (w : Weekday) : Prop := ∃ n, Later n epoch c ∧ DaysOn (n / 86400) .thu w

/-- a C structure `tm` for the given time; the fields tm_wday, tm_yday and tm_isdst may be anything -/
def Tm.For (tm : Tm) (c : Civil) : Prop :=
  tm.year = c.year - 1900 ∧ tm.mon = frommonth c.month ∧ tm.mday = c.day ∧ tm.hour = c.hour ∧ tm.min = c.minute ∧
  tm.sec = c.second

/-- the time `c` exists in the zone of the C library: mktime and localtime give it back, with the right weekday and
day of the year (times that are skipped when summer time begins do not exist) -/
def Clib.Knows (C : Clib) (c : Civil) : Prop :=
  ∀ tm : Tm, tm.For c → (C.localtime (C.mktime tm)).For c ∧
    (C.localtime (C.mktime tm)).yday = dayOfYear c.year c.month c.day ∧
    ∃ w, WeekdayOf c w ∧ (C.localtime (C.mktime tm)).wday = fromwday w

/-- mktime and localoffset agree about standard time: `localoffset` seconds must be added to get UTC -/
def Clib.Standard (C : Clib) : Prop :=
  ∀ (tm : Tm) (c : Civil) (n : Int), tm.isdst = 0 → tm.For c → c.Valid → Later n epoch c → C.mktime tm = n + C.localoffset

/-- the number of seconds that must be added to the time of a zone to get UTC, as Date.sig explains it: offsets below
12 hours are to the west, the others to the east -/
def west (t : Int) : Int := if t % 86400 < 43200 then t % 86400 else t % 86400 - 86400

/-- the beginning of the month named by the arguments of `Date.date` -/
def Arg.first (a : Arg) : Civil := ⟨a.year, a.month, 1, 0, 0, 0⟩

/-- how many seconds after it the arguments are: days, hours, minutes, seconds and the whole days of the offset -/
def Arg.seconds (a : Arg) : Int :=
  86400 * (a.day - 1 + (a.offset.getD 0).tdiv 86400) + 3600 * a.hour + 60 * a.minute + a.second

/-- if the zone is not given and the result is in the years in which the C library is asked, then the C library must
know the time -/
def Arg.Known (C : Clib) (a : Arg) : Prop :=
  a.offset = none → ∀ c : Civil, c.Valid → 1970 ≤ c.year → c.year ≤ 2037 → Later a.seconds a.first c → C.Knows c

end Mosml.Dates
