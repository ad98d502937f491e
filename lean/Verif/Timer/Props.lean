import Verif.Timer.Model
import Verif.Util

/-! # C104: the timers -/
namespace Mosml.Timer

/-- the microseconds of a reading -/
def us (t : Tv) : Int := 1000000 * t.sec + t.usec

/-- a proper reading -/
def Proper (t : Tv) : Prop := 0 ≤ t.usec ∧ t.usec < 1000000

/-- the sum of the lengths of intervals -/
def total : List (Tv × Tv) → Int
  | [] => 0
  | (a, b) :: l => (us b - us a) + total l

/-- the intervals follow one another between `x` and `y` -/
def Between (x : Int) : List (Tv × Tv) → Int → Prop
  | [], y => x ≤ y
  | (a, b) :: l, y => x ≤ us a ∧ us a ≤ us b ∧ Between (us b) l y

theorem step (g a b : Tv) (hg : Proper g) (ha : Proper a) (hb : Proper b) :
    Proper (endGc (begGc g a) b) ∧ us (endGc (begGc g a) b) = us g + (us b - us a) := by
  obtain ⟨gs, gu⟩ := g
  obtain ⟨as, au⟩ := a
  obtain ⟨bs, bu⟩ := b
  simp only [Proper] at hg ha hb
  by_cases h : gu - au < 0
  · have e : begGc ⟨gs, gu⟩ ⟨as, au⟩ = ⟨gs - as - 1, gu - au + 1000000⟩ := if_pos h
    rw [e]
    by_cases h' : gu - au + 1000000 + bu ≥ 1000000
    · have e' : endGc ⟨gs - as - 1, gu - au + 1000000⟩ ⟨bs, bu⟩ =
        ⟨gs - as - 1 + bs + 1, gu - au + 1000000 + bu - 1000000⟩ := if_pos h'
      rw [e']; simp only [Proper, us]; omega
    · have e' : endGc ⟨gs - as - 1, gu - au + 1000000⟩ ⟨bs, bu⟩ =
        ⟨gs - as - 1 + bs, gu - au + 1000000 + bu⟩ := if_neg h'
      rw [e']; simp only [Proper, us]; omega
  · have e : begGc ⟨gs, gu⟩ ⟨as, au⟩ = ⟨gs - as, gu - au⟩ := if_neg h
    rw [e]
    by_cases h' : gu - au + bu ≥ 1000000
    · have e' : endGc ⟨gs - as, gu - au⟩ ⟨bs, bu⟩ = ⟨gs - as + bs + 1, gu - au + bu - 1000000⟩ := if_pos h'
      rw [e']; simp only [Proper, us]; omega
    · have e' : endGc ⟨gs - as, gu - au⟩ ⟨bs, bu⟩ = ⟨gs - as + bs, gu - au + bu⟩ := if_neg h'
      rw [e']; simp only [Proper, us]; omega

/-- The time of collections is the sum of the times that they took, as a proper number of seconds and microseconds. -/
theorem C104_gc (l : List (Tv × Tv)) (h : ∀ p ∈ l, Proper p.1 ∧ Proper p.2) (g : Tv) (hg : Proper g) :
    Proper (collect g l) ∧ us (collect g l) = us g + total l := by
  induction l generalizing g with
  | nil => exact ⟨hg, by simp [collect, total]⟩
  | cons p l ih =>
    obtain ⟨a, b⟩ := p
    have hp := h (a, b) (by simp)
    have hs := step g a b hg hp.1 hp.2
    have := ih (fun q hq => h q (by simp [hq])) _ hs.1
    simp only [collect, total]
    refine ⟨this.1, ?_⟩
    rw [this.2, hs.2]; omega

example : collect ⟨0, 999000⟩ [(⟨1, 500000⟩, ⟨1, 900000⟩), (⟨3, 999999⟩, ⟨4, 1⟩)] = ⟨1, 399002⟩ := by decide

theorem collect_append (g : Tv) (l m : List (Tv × Tv)) : collect g (l ++ m) = collect (collect g l) m := by
  induction l generalizing g with
  | nil => rfl
  | cons p l ih => obtain ⟨a, b⟩ := p; exact ih _

theorem total_append (l m : List (Tv × Tv)) : total (l ++ m) = total l + total m := by
  induction l with
  | nil => simp [total]
  | cons p l ih => obtain ⟨a, b⟩ := p; simp only [List.cons_append, total, ih]; omega

theorem between_total (l : List (Tv × Tv)) (x y : Int) (h : Between x l y) : 0 ≤ total l ∧ total l ≤ y - x := by
  induction l generalizing x with
  | nil => simp only [Between] at h; simp only [total]; omega
  | cons p l ih =>
    obtain ⟨a, b⟩ := p
    obtain ⟨h1, h2, h3⟩ := h
    have := ih _ h3
    simp only [total]; omega

/-- A timer that is checked shows the user and system time since it was started, and checkCPUTimes splits this into
the part for collections and the rest. -/
theorem C104_cpu (u v : Usage) :
    checkCPUTimer (startCPUTimer u) v = (us v.usr - us u.usr, us v.sys - us u.sys) ∧
    (checkCPUTimes (startCPUTimer u) v).gcUsr = us v.gc - us u.gc ∧
    checkGCTime (startCPUTimer u) v = us v.gc - us u.gc ∧
    (checkCPUTimes (startCPUTimer u) v).nongcUsr + (checkCPUTimes (startCPUTimer u) v).gcUsr =
      us v.usr - us u.usr ∧
    (checkCPUTimes (startCPUTimer u) v).nongcSys + (checkCPUTimes (startCPUTimer u) v).gcSys =
      us v.sys - us u.sys := by
  refine ⟨?_, ?_, ?_, ?_, ?_⟩ <;>
    simp only [checkCPUTimer, startCPUTimer, checkCPUTimes, checkGCTime, us, fromSeconds, fromMicroseconds] <;>
    omega

example : checkCPUTimes (startCPUTimer ⟨⟨0, 5⟩, ⟨0, 7⟩, ⟨1, 0⟩⟩) ⟨⟨0, 25⟩, ⟨0, 8⟩, ⟨2, 1⟩⟩ =
    ⟨999981, 1, 20, 0⟩ := by decide

/-- Collections that happen between the start of a timer and its check: the time for them and the rest
are both at least 0 if no collection happens while the times are read. What is missing: a collection may happen
there (`C104_nonneg_violation`). -/
theorem C104_nonneg_partial (g usr sys usr' sys' : Tv) (l : List (Tv × Tv)) (hg : Proper g)
    (h : ∀ p ∈ l, Proper p.1 ∧ Proper p.2) (hb : Between (us usr) l (us usr')) :
    let r := checkCPUTimes (startCPUTimer (getrutime g usr sys [])) (getrutime (collect g l) usr' sys' [])
    r.gcUsr = total l ∧ 0 ≤ r.gcUsr ∧ 0 ≤ r.nongcUsr := by
  intro r
  have c := C104_cpu (getrutime g usr sys []) (getrutime (collect g l) usr' sys' [])
  have t := between_total l _ _ hb
  have e := (C104_gc l h g hg).2
  have c2 : r.gcUsr = us (collect g l) - us g := c.2.1
  have c4 : r.nongcUsr + r.gcUsr = us usr' - us usr := c.2.2.2.1
  omega

example : Between (us ⟨1, 0⟩) [(⟨1, 500000⟩, ⟨1, 900000⟩), (⟨3, 999999⟩, ⟨4, 1⟩)] (us ⟨5, 0⟩) := by
  simp [Between, us]

/-- A collection that the allocation of the result of sml_getrutime causes is counted as collection, but not as user time, which
was read before it. If it takes longer than the program ran without collecting, the time outside collections
is negative. -/
theorem C104_nonneg_violation (g usr sys usr' sys' : Tv) (l m : List (Tv × Tv)) (hg : Proper g)
    (h : ∀ p ∈ l ++ m, Proper p.1 ∧ Proper p.2)
    (hm : us usr' - us usr - total l < total m) :
    (checkCPUTimes (startCPUTimer (getrutime g usr sys [])) (getrutime (collect g l) usr' sys' m)).nongcUsr < 0 := by
  have c := C104_cpu (getrutime g usr sys []) (getrutime (collect g l) usr' sys' m)
  have e := (C104_gc (l ++ m) h g hg).2
  rw [collect_append, total_append] at e
  have c2 : (checkCPUTimes (startCPUTimer (getrutime g usr sys [])) (getrutime (collect g l) usr' sys' m)).gcUsr =
    us (collect (collect g l) m) - us g := c.2.1
  have c4 : (checkCPUTimes (startCPUTimer (getrutime g usr sys [])) (getrutime (collect g l) usr' sys' m)).nongcUsr +
    (checkCPUTimes (startCPUTimer (getrutime g usr sys [])) (getrutime (collect g l) usr' sys' m)).gcUsr =
      us usr' - us usr := c.2.2.2.1
  omega

/-- clock 1.0 s at the start and 1.000010 s at the check, and a collection of 5 ms right after the clock is read -/
example : checkCPUTimes (startCPUTimer (getrutime ⟨0, 0⟩ ⟨1, 0⟩ ⟨0, 0⟩ []))
    (getrutime ⟨0, 0⟩ ⟨1, 10⟩ ⟨0, 0⟩ [(⟨1, 10⟩, ⟨1, 5010⟩)]) = ⟨-4990, 0, 5000, 0⟩ := by decide

end Mosml.Timer
