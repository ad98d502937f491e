import Verif.Num.Model

/-! Model of src/mosmllib/Date.sml: calendar arithmetic, normalisation, time zones, printing and scanning.

Integers are mathematical; every addition, subtraction, multiplication and negation of the source whose result
could leave the 63-bit range goes through `chk`, which raises Overflow (C01, C02).  Divisions and remainders have
positive constant divisors and round down (C03).  The functions of the C library are parameters (`Clib`), except
`asctime`, whose text is given by ISO C; times are whole numbers of seconds instead of reals. -/

namespace Mosml.Dates

open Mosml.Num (Str isSpace intScan Radix Scan)

/-- Date.sml:3 -/
inductive Weekday where | mon | tue | wed | thu | fri | sat | sun
  deriving DecidableEq, Repr

/-- Date.sml:5-7 -/
inductive Month where | jan | feb | mar | apr | may | jun | jul | aug | sep | oct | nov | dec
  deriving DecidableEq, Repr

/-- Date.sml:9-21; `offset` is in seconds east of UTC -/
structure Date where
  year : Int
  month : Month
  day : Int
  hour : Int
  minute : Int
  second : Int
  wday : Weekday
  yday : Int
  isDst : Option Bool
  offset : Option Int
  deriving DecidableEq, Repr

/-- the exceptions Date, Overflow, Fail -/
inductive Exn where | date | overflow | fail
  deriving DecidableEq, Repr

abbrev R := Except Exn

/-- the result of an integer operation: it must fit into 63 bits (Int.minInt, Int.maxInt on a 64-bit machine) -/
def chk (x : Int) : R Int := if -2 ^ 62 ≤ x ∧ x < 2 ^ 62 then .ok x else .error .overflow

/-- Date.sml:29-38 -/
structure Tm where
  hour : Int
  isdst : Int
  mday : Int
  min : Int
  mon : Int
  sec : Int
  wday : Int
  yday : Int
  year : Int
  deriving DecidableEq, Repr

/-- Date.sml:40-47, mosml.c:1065-1119, 1510-1528: the C functions localtime, gmtime and mktime and the value of
`localoffset`, in whole seconds -/
structure Clib where
  localtime : Int → Tm
  gmtime : Int → Tm
  mktime : Tm → Int
  localoffset : Int

/-- Date.sml:52-54 -/
def toweekday (n : Int) : R Weekday :=
  if n = 0 then .ok .sun else if n = 1 then .ok .mon else if n = 2 then .ok .tue else if n = 3 then .ok .wed
  else if n = 4 then .ok .thu else if n = 5 then .ok .fri else if n = 6 then .ok .sat else .error .fail

/-- Date.sml:55-56 -/
def fromwday : Weekday → Int
  | .sun => 0 | .mon => 1 | .tue => 2 | .wed => 3 | .thu => 4 | .fri => 5 | .sat => 6

/-- Date.sml:57-60 -/
def tomonth (n : Int) : R Month :=
  if n = 0 then .ok .jan else if n = 1 then .ok .feb else if n = 2 then .ok .mar else if n = 3 then .ok .apr
  else if n = 4 then .ok .may else if n = 5 then .ok .jun else if n = 6 then .ok .jul else if n = 7 then .ok .aug
  else if n = 8 then .ok .sep else if n = 9 then .ok .oct else if n = 10 then .ok .nov else if n = 11 then .ok .dec
  else .error .fail

/-- Date.sml:61-63 -/
def frommonth : Month → Int
  | .jan => 0 | .feb => 1 | .mar => 2 | .apr => 3 | .may => 4 | .jun => 5
  | .jul => 6 | .aug => 7 | .sep => 8 | .oct => 9 | .nov => 10 | .dec => 11

/-- Date.sml:65-74 -/
def tmozToDate (tm : Tm) (offset : Option Int) : R Date := do
  .ok { year := ← chk (tm.year + 1900), month := ← tomonth tm.mon, day := tm.mday, hour := tm.hour,
        minute := tm.min, second := tm.sec, wday := ← toweekday tm.wday, yday := tm.yday,
        isDst := if tm.isdst = 0 then some false else if tm.isdst = 1 then some true else none,
        offset := offset }

/-- Date.sml:76 -/
def leapyear (y : Int) : Bool := y % 4 == 0 && y % 100 != 0 || y % 400 == 0

/-- Date.sml:78 monthlengths, indexed by frommonth -/
def monthlength : Month → Int
  | .jan => 31 | .feb => 28 | .mar => 31 | .apr => 30 | .may => 31 | .jun => 30
  | .jul => 31 | .aug => 31 | .sep => 30 | .oct => 31 | .nov => 30 | .dec => 31

/-- Date.sml:80-82 -/
def monthdays (year : Int) (month : Month) : Int :=
  if month = .feb ∧ leapyear year then 29 else monthlength month

/-- Date.sml:88-93 -/
def okDate (d : Date) : Bool :=
  1900 ≤ d.year && 1 ≤ d.day && d.day ≤ monthdays d.year d.month && 0 ≤ d.hour && d.hour ≤ 23 &&
  0 ≤ d.minute && d.minute ≤ 59 && 0 ≤ d.second && d.second ≤ 61

/-- Date.sml:95-104 -/
def dateToTmoz (d : Date) : R Tm :=
  if okDate d then do
    .ok { hour := d.hour, mday := d.day, min := d.minute, mon := frommonth d.month, sec := d.second,
          year := ← chk (d.year - 1900),
          isdst := match d.isDst with | some false => 0 | some true => 1 | none => -1,
          wday := fromwday d.wday, yday := d.yday }
  else .error .date

/-- Date.sml:111-118 -/
def dayinyear (year : Int) (month : Month) (day : Int) : R Int := do
  let monthno := frommonth month
  let a ← chk (day - 1)
  let a ← chk (a + 31 * monthno)
  chk (a - (if monthno > 1 then (27 + 4 * monthno) / 10 - (if leapyear year then 1 else 0) else 0))

/-- Date.sml:123-132 -/
def todaynumber (year : Int) (month : Month) (day : Int) : R Int := do
  let prioryears ← chk (year - 1)
  let a ← dayinyear year month day
  let a ← chk (a + 1)
  let b ← chk (365 * prioryears)
  let a ← chk (a + b)
  let a ← chk (a + prioryears / 4)
  let a ← chk (a - prioryears / 100)
  chk (a + prioryears / 400)

/-- Date.sml:147-152 the inner `loop`; the number of months left is the fuel (`tomonth` raises Fail after December) -/
def monthLoop (year : Int) : Nat → Int → Int → R (Int × Month × Int)
  | 0, _, _ => .error .fail
  | k + 1, month, day => do
    let m ← tomonth month
    let mdays := monthdays year m
    if mdays < day then monthLoop year k (month + 1) (day - mdays) else .ok (year, m, day)

/-- Date.sml:136-158 (the operations on n400 stay below |n| and cannot overflow, those on the year neither;
`400 * n400` etc. are smaller than `n`) -/
def fromdaynumber (n : Int) : R (Int × Month × Int) := do
  let d0 ← chk (n - 1)
  let n400 := d0 / 146097
  let d1 := d0 % 146097
  let n100 := d1 / 36524
  let d2 := d1 % 36524
  let n4 := d2 / 1461
  let d3 := d2 % 1461
  let n1 := d3 / 365
  let day := 1 + d3 % 365
  let year := 400 * n400 + 100 * n100 + n4 * 4 + n1 + 1
  if n100 = 4 ∨ n1 = 4 then .ok (year - 1, .dec, 31) else monthLoop year 13 0 day

/-- Date.sml:162 -/
def weekday (daynumber : Int) : R Weekday := toweekday (daynumber % 7)

/-- Date.sml:184-186 -/
def dstOf : Option Int → Option Bool
  | none => none
  | some _ => some false

/-- Date.sml:166-201 -/
def normalizedate (C : Clib) (yr0 : Int) (mo0 : Month) (dy0 hr0 mn0 sec0 : Int) (offset : Option Int) : R Date := do
  let mn1 ← chk (mn0 + sec0 / 60)
  let second := sec0 % 60
  let hr1 ← chk (hr0 + mn1 / 60)
  let minute := mn1 % 60
  let dayno ← chk ((← todaynumber yr0 mo0 dy0) + hr1 / 24)
  let hour := hr1 % 24
  let (year, month, day) ← fromdaynumber dayno
  let date1 : Date :=
    { year, month, day, hour, minute, second, wday := ← weekday dayno, yday := ← dayinyear year month day, offset,
      isDst := dstOf offset }
  if year < 1970 ∨ year > 2037 then .ok date1
  else match offset with
    | none => do tmozToDate (C.localtime (C.mktime (← dateToTmoz date1))) offset
    | some _ => .ok date1

/-- the argument of `date` (Date.sml:295): `offset` is the whole number of seconds `Time.toSeconds` gives -/
structure Arg where
  year : Int
  month : Month
  day : Int
  hour : Int
  minute : Int
  second : Int
  offset : Option Int
  deriving DecidableEq, Repr

/-- Date.sml:295-309 -/
def date (C : Clib) (a : Arg) : R Date :=
  if a.year < 0 then .error .date
  else do
    let (dayoffset, offset') ← (match a.offset with
      | none => (.ok (0, none) : R (Int × Option Int))
      | some secs => do
        let secoffset ← chk (if secs ≤ 43200 then -secs else 86400 - secs)
        .ok (secs.tdiv 86400, some secoffset))
    let day' ← chk (a.day + dayoffset)
    normalizedate C a.year a.month day' a.hour a.minute a.second offset'

/-- Date.sml:205-206 -/
def fromTimeLocal (C : Clib) (t : Int) : R Date := tmozToDate (C.localtime t) none

/-- Date.sml:208-209 -/
def fromTimeUniv (C : Clib) (t : Int) : R Date := tmozToDate (C.gmtime t) (some 0)

/-- Date.sml:214-223 (exact, as reals below 2^53 are) -/
def toTime (C : Clib) (d : Date) : R Int := do
  let secoffset := match d.offset with | none => 0 | some secs => C.localoffset + secs
  let clock := C.mktime (← dateToTmoz d) - secoffset
  if clock < 0 then .error .date else .ok clock

/-- Date.sml:225 -/
def localOffset (C : Clib) : Int := C.localoffset % 86400

/-- Date.sml:329-331 -/
def offset (d : Date) : R (Option Int) :=
  match d.offset with
  | none => .ok none
  | some secs => do .ok (some ((← chk (86400 - secs)) % 86400))

/-- Date.sml:281-284 -/
def cmp (v1 v2 : Int) (next : Ordering) : Ordering := if v1 < v2 then .lt else if v1 > v2 then .gt else next

/-- Date.sml:278-293 -/
def compare (d1 d2 : Date) : Ordering :=
  cmp d1.year d2.year (cmp (frommonth d1.month) (frommonth d2.month) (cmp d1.day d2.day
    (cmp d1.hour d2.hour (cmp d1.minute d2.minute (cmp d1.second d2.second .eq)))))

/-! ### Text -/

/-- the characters of a string -/
def str (s : String) : Str := s.toList.map Char.toNat

/-- C's %.2d for a number that is not negative -/
def d2 (n : Int) : Str := if n < 10 then 48 :: Num.intFmt .dec n else Num.intFmt .dec n

/-- C's %3d -/
def w3 (n : Int) : Str := List.replicate (3 - (Num.intFmt .dec n).length) 32 ++ Num.intFmt .dec n

/-- the abbreviated names of months in ISO C's asctime -/
def monName : Month → String
  | .jan => "Jan" | .feb => "Feb" | .mar => "Mar" | .apr => "Apr" | .may => "May" | .jun => "Jun"
  | .jul => "Jul" | .aug => "Aug" | .sep => "Sep" | .oct => "Oct" | .nov => "Nov" | .dec => "Dec"

/-- the abbreviated names of weekdays in ISO C's asctime -/
def wdayName : Weekday → String
  | .mon => "Mon" | .tue => "Tue" | .wed => "Wed" | .thu => "Thu" | .fri => "Fri" | .sat => "Sat" | .sun => "Sun"

/-- ISO C 7.27.3.1 asctime, called by sml_asctime (mosml.c:1121-1140): the format is
`"%.3s %.3s%3d %.2d:%.2d:%.2d %d\n"`; month and weekday come as numbers -/
def asctime (tm : Tm) : R Str := do
  let w ← toweekday tm.wday
  let m ← tomonth tm.mon
  .ok (str (wdayName w) ++ 32 :: str (monName m) ++ w3 tm.mday ++ 32 :: d2 tm.hour ++ 58 :: d2 tm.min ++
    58 :: d2 tm.sec ++ 32 :: Num.intFmt .dec (1900 + tm.year) ++ [10])

/-- Date.sml:227-230: `String.substring` raises Subscript, which becomes Fail, if there are fewer than 24 characters;
Fail from asctime becomes Date -/
def toString (d : Date) : R Str := do
  let s ← match asctime (← dateToTmoz d) with
    | .error .fail => (.error .date : R Str)
    | r => r
  if s.length < 24 then .error .fail else .ok (s.take 24)

/-- Char.isAlpha -/
def isAlpha (c : Nat) : Bool := (65 ≤ c && c ≤ 90) || (97 ≤ c && c ≤ 122)

/-- Date.sml:248-252 -/
def getMonth (s : Str) : Option Month :=
  if s = str "Jan" then some .jan else if s = str "Feb" then some .feb else if s = str "Mar" then some .mar
  else if s = str "Apr" then some .apr else if s = str "May" then some .may else if s = str "Jun" then some .jun
  else if s = str "Jul" then some .jul else if s = str "Aug" then some .aug else if s = str "Sep" then some .sep
  else if s = str "Oct" then some .oct else if s = str "Nov" then some .nov else if s = str "Dec" then some .dec
  else none

/-- Date.sml:253-256 -/
def getWday (s : Str) : Option Weekday :=
  if s = str "Sun" then some .sun else if s = str "Mon" then some .mon else if s = str "Tue" then some .tue
  else if s = str "Wed" then some .wed else if s = str "Thu" then some .thu else if s = str "Fri" then some .fri
  else if s = str "Sat" then some .sat else none

/-- Date.sml:244, 239-240: `getint`; `.ok none` is BadFormat -/
def getint (src : Str) : R (Option (Int × Str)) :=
  match intScan .dec src with
  | .none => .ok none
  | .some v rest => .ok (some (v, rest))
  | .overflow => .error .overflow

/-- Date.sml:242-272; a reader is the list of characters to come (C07); `.ok none` is NONE -/
def scan (src : Str) : R (Option (Date × Str)) := do
  let wday := src.takeWhile isAlpha
  let src1 := src.dropWhile isAlpha
  let month := (src1.dropWhile isSpace).takeWhile isAlpha
  let src2 := (src1.dropWhile isSpace).dropWhile isAlpha
  let some (day, src3) ← getint src2 | return none
  let some (hour, src4) ← getint src3 | return none
  let some (min, src5) ← getint (src4.dropWhile (· == 58)) | return none
  let some (sec, src6) ← getint (src5.dropWhile (· == 58)) | return none
  let some (year, src7) ← getint src6 | return none
  let some month := getMonth month | return none
  let some wday := getWday wday | return none
  let yday ← dayinyear year month day
  return some ({ year, month, day, hour, minute := min, second := sec, wday, yday, isDst := none, offset := none },
    src7)

/-- Date.sml:274 -/
def fromString (s : Str) : R (Option Date) := do
  match ← scan s with
  | none => .ok none
  | some (d, _) => .ok (some d)

end Mosml.Dates
