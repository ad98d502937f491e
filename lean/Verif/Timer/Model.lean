/-!
# Model of the timers: mosmllib/Timer.sml, sml_getrutime of runtime/mosml.c and the time of collections of runtime/runtime.c

Unix with getrusage. A reading of a clock is a parameter. A `Time.time` is a whole number of microseconds: the
real numbers that the code uses are exact below 2^53. `long` is unbounded.
-/
namespace Mosml.Timer

/-- struct timeval and mosml_timeval -/
structure Tv where
  sec : Int
  usec : Int
deriving DecidableEq, Repr

/-- runtime.c:257-289 beg_gc_time, when the clock of user time shows `t` -/
def begGc (g t : Tv) : Tv :=
  let sec := g.sec - t.sec
  let usec := g.usec - t.usec
  if usec < 0 then ⟨sec - 1, usec + 1000000⟩ else ⟨sec, usec⟩

/-- runtime.c:291-324 end_gc_time -/
def endGc (g t : Tv) : Tv :=
  let sec := g.sec + t.sec
  let usec := g.usec + t.usec
  if usec ≥ 1000000 then ⟨sec + 1, usec - 1000000⟩ else ⟨sec, usec⟩

/-- gc_time after the collections that begin and end at the given times: minor_gc.c:119-151 minor_collection and
major_gc.c:690-704 finish_major_cycle, which do not call each other -/
def collect (g : Tv) : List (Tv × Tv) → Tv
  | [] => g
  | (a, b) :: l => collect (endGc (begGc g a) b) l

/-- Timer.sml:8-10 tusage -/
structure Usage where
  gc : Tv
  sys : Tv
  usr : Tv

/-- mosml.c:675-721 sml_getrutime: the clocks are read, the result is allocated, which may cause collections, and then
gc_time is read -/
def getrutime (g usr sys : Tv) (during : List (Tv × Tv)) : Usage := ⟨collect g during, sys, usr⟩

/-- Time.sml:19 fromSeconds -/
def fromSeconds (s : Int) : Int := 1000000 * s
/-- Time.sml:23 fromMicroseconds -/
def fromMicroseconds (us : Int) : Int := us

/-- Timer.sml:14 cpu_timer -/
structure CpuTimer where
  usr : Int
  sys : Int
  gc : Int
deriving DecidableEq, Repr

/-- Timer.sml:17-23 startCPUTimer, with the result of getrutime_ -/
def startCPUTimer (u : Usage) : CpuTimer where
  usr := fromSeconds u.usr.sec + fromMicroseconds u.usr.usec
  sys := fromSeconds u.sys.sec + fromMicroseconds u.sys.usec
  gc := fromSeconds u.gc.sec + fromMicroseconds u.gc.usec

/-- the result of checkCPUTimes -/
structure Times where
  nongcUsr : Int
  nongcSys : Int
  gcUsr : Int
  gcSys : Int
deriving DecidableEq, Repr

/-- Timer.sml:25-35 checkCPUTimes -/
def checkCPUTimes (t : CpuTimer) (u : Usage) : Times :=
  let gcUsr := fromSeconds u.gc.sec + fromMicroseconds u.gc.usec - t.gc
  { nongcUsr := fromSeconds u.usr.sec + fromMicroseconds u.usr.usec - t.usr - gcUsr
    nongcSys := fromSeconds u.sys.sec + fromMicroseconds u.sys.usec - t.sys
    gcUsr := gcUsr
    gcSys := fromSeconds 0 }

/-- Timer.sml:37-42 checkCPUTimer: user and system time -/
def checkCPUTimer (t : CpuTimer) (u : Usage) : Int × Int :=
  (fromSeconds u.usr.sec + fromMicroseconds u.usr.usec - t.usr,
   fromSeconds u.sys.sec + fromMicroseconds u.sys.usec - t.sys)

/-- Timer.sml:44 checkGCTime -/
def checkGCTime (t : CpuTimer) (u : Usage) : Int := (checkCPUTimes t u).gcUsr

end Mosml.Timer
