import Verif.Num.LemmasFmt

namespace Mosml.Num
open Mosml.Ints

/-- unsigned numerals with optional hexadecimal prefix -/
def UL (b : Nat) (p : Str) (n : Nat) : Prop :=
  ∃ pre ds, p = pre ++ ds ∧ (pre = [] ∨ b = 16 ∧ (pre = [48, 120] ∨ pre = [48, 88])) ∧
    ds ≠ [] ∧ (∀ c ∈ ds, IsDig b c) ∧ n = numVal b ds

theorem takeWhile_max {P : Nat → Bool} {s ds rest : Str} (h : s = ds ++ rest) (hd : ∀ c ∈ ds, P c = true) :
    ds.length ≤ (s.takeWhile P).length := by
  subst h
  rw [List.takeWhile_append_of_pos hd, List.length_append]
  omega

theorem takeWhile_dig (r : Radix) (s : Str) : ∀ c ∈ s.takeWhile r.isDigit, IsDig r.factor c := fun c hc =>
  (isDigit_iff r c).mp (List.all_eq_true.mp (List.all_takeWhile (p := r.isDigit) (l := s)) c hc)

theorem not_dig_x : ¬ IsDig 16 120 ∧ ¬ IsDig 16 88 := by decide

theorem factor16 {r : Radix} : r.factor = 16 ↔ r = .hex := by cases r <;> decide

/-- the string starts with a hexadecimal prefix followed by a digit -/
def HexPre (s : Str) : Prop := ∃ x c t, s = 48 :: x :: c :: t ∧ (x = 120 ∨ x = 88) ∧ IsDig 16 c

theorem longest_plain (r : Radix) (s : Str) (h : r = .hex → ¬ HexPre s)
    (hne : s.takeWhile r.isDigit ≠ []) :
    Longest (UL r.factor) s (s.takeWhile r.isDigit) (numVal r.factor (s.takeWhile r.isDigit))
      (s.dropWhile r.isDigit) := by
  refine ⟨(List.takeWhile_append_dropWhile).symm, ⟨[], _, rfl, Or.inl rfl, hne, takeWhile_dig r s, rfl⟩, ?_⟩
  rintro p' rest' v' hs ⟨pre, ds, rfl, hpre, hds, hdig, -⟩
  rcases hpre with rfl | ⟨hb, hpre⟩
  · exact takeWhile_max hs (fun c hc => (isDigit_iff r c).mpr (hdig c hc))
  · exfalso
    have hr := factor16.mp hb
    subst hr
    apply h rfl
    cases ds with
    | nil => exact absurd rfl hds
    | cons c t =>
      rcases hpre with rfl | rfl
      · exact ⟨120, c, t ++ rest', hs, Or.inl rfl, hdig c (by simp)⟩
      · exact ⟨88, c, t ++ rest', hs, Or.inr rfl, hdig c (by simp)⟩

theorem none_plain (r : Radix) (s : Str) (h : s.takeWhile r.isDigit = []) :
    ∀ p rest n, s = p ++ rest → ¬ UL r.factor p n := by
  rintro p rest n hs ⟨pre, ds, rfl, hpre, hds, hdig, -⟩
  have key : ∀ c t, s = c :: t → IsDig r.factor c → False := by
    rintro c t rfl hc
    rw [List.takeWhile_cons, if_pos ((isDigit_iff r c).mpr hc)] at h
    cases h
  rcases hpre with rfl | ⟨hb, hpre⟩
  · cases ds with
    | nil => exact hds rfl
    | cons c t => exact key c (t ++ rest) hs (hdig c (by simp))
  · have hr := factor16.mp hb
    subst hr
    rcases hpre with rfl | rfl
    · exact key 48 _ hs (by decide)
    · exact key 48 _ hs (by decide)

theorem longest_hex (x : Nat) (hx : x = 120 ∨ x = 88) (t : Str) (hne : t.takeWhile Radix.hex.isDigit ≠ []) :
    Longest (UL 16) (48 :: x :: t) (48 :: x :: t.takeWhile Radix.hex.isDigit)
      (numVal 16 (t.takeWhile Radix.hex.isDigit)) (t.dropWhile Radix.hex.isDigit) := by
  refine ⟨by simp, ⟨[48, x], _, rfl, Or.inr ⟨rfl, ?_⟩, hne, takeWhile_dig .hex t, rfl⟩, ?_⟩
  · rcases hx with rfl | rfl <;> simp
  · rintro p' rest' v' hs ⟨pre, ds, rfl, hpre, hds, hdig, -⟩
    rcases hpre with rfl | ⟨-, hpre⟩
    · have := takeWhile_max (P := Radix.hex.isDigit) hs (fun c hc => (isDigit_iff .hex c).mpr (hdig c hc))
      have e : (48 :: x :: t).takeWhile Radix.hex.isDigit = [48] := by
        rcases hx with rfl | rfl <;> rfl
      rw [e] at this
      simp at this ⊢
      omega
    · have : t = ds ++ rest' := by
        rcases hpre with rfl | rfl <;> simpa using (by simpa using hs : _ ∧ t = ds ++ rest').2
      have := takeWhile_max (P := Radix.hex.isDigit) this (fun c hc => (isDigit_iff .hex c).mpr (hdig c hc))
      rcases hpre with rfl | rfl <;> simpa using this

/-- what an unsigned scan must return -/
def UScanOk (b : Nat) (sgn : Int) (s : Str) : Scan Int → Prop
  | .none => ∀ p rest n, s = p ++ rest → ¬ UL b p n
  | .some v rest => ∃ p n, Longest (UL b) s p n rest ∧ v = sgn * (n : Int) ∧ InRange v
  | .overflow => ∃ p n rest, Longest (UL b) s p n rest ∧ ¬ InRange (sgn * (n : Int))

theorem dig1_ok (r : Radix) (sgn : Int) (hs : sgn = 1 ∨ sgn = -1) (s : Str)
    (h : r = .hex → ¬ HexPre s) : UScanOk r.factor sgn s (dig1 r sgn s) := by
  rw [dig1_eq r sgn hs]
  by_cases h1 : s.takeWhile r.isDigit = []
  · rw [if_pos h1]; exact none_plain r s h1
  · rw [if_neg h1]
    have hl := longest_plain r s h h1
    by_cases h2 : InRange (sgn * (numVal r.factor (s.takeWhile r.isDigit) : Nat))
    · rw [if_pos h2]; exact ⟨_, _, hl, rfl, h2⟩
    · rw [if_neg h2]; exact ⟨_, _, _, hl, h2⟩

theorem inRange_zero : InRange 0 := by decide

theorem isDigit48 (r : Radix) : r.isDigit 48 = true := by cases r <;> rfl

theorem takeWhile48 (r : Radix) (t : Str) :
    (48 :: t).takeWhile r.isDigit = 48 :: t.takeWhile r.isDigit := by
  rw [List.takeWhile_cons, if_pos (isDigit48 r)]

theorem dropWhile48 (r : Radix) (t : Str) : (48 :: t).dropWhile r.isDigit = t.dropWhile r.isDigit := by
  rw [List.dropWhile_cons, if_pos (isDigit48 r)]

theorem numVal48 (b : Nat) (t : Str) : numVal b (48 :: t) = numVal b t := by
  rw [numVal_cons]
  show foldD b 0 t = _
  rfl

theorem takeWhile_nil_dropWhile {P : Nat → Bool} {t : Str} (h : t.takeWhile P = []) : t.dropWhile P = t := by
  have := List.takeWhile_append_dropWhile (p := P) (l := t)
  rw [h] at this; exact this

/-- a leading zero without hexadecimal prefix -/
theorem getdigs_ok (r : Radix) (sgn : Int) (hs : sgn = 1 ∨ sgn = -1) (t : Str)
    (h : r = .hex → ¬ HexPre (48 :: t)) : UScanOk r.factor sgn (48 :: t) (getdigs r sgn t t) := by
  have hl := longest_plain r (48 :: t) h (by rw [takeWhile48]; simp)
  rw [takeWhile48, dropWhile48, numVal48] at hl
  rw [getdigs, dig1_eq r sgn hs]
  by_cases h1 : t.takeWhile r.isDigit = []
  · rw [if_pos h1]
    rw [h1, takeWhile_nil_dropWhile h1] at hl
    exact ⟨_, _, hl, by simp [numVal], inRange_zero⟩
  · rw [if_neg h1]
    by_cases h2 : InRange (sgn * (numVal r.factor (t.takeWhile r.isDigit) : Nat))
    · rw [if_pos h2]; exact ⟨_, _, hl, rfl, h2⟩
    · rw [if_neg h2]; exact ⟨_, _, _, hl, h2⟩

/-- a hexadecimal prefix, possibly without digits after it -/
theorem getdigs_hex_ok (sgn : Int) (hs : sgn = 1 ∨ sgn = -1) (x : Nat) (hx : x = 120 ∨ x = 88) (t : Str) :
    UScanOk 16 sgn (48 :: x :: t) (getdigs .hex sgn (x :: t) t) := by
  rw [getdigs, dig1_eq .hex sgn hs]
  by_cases h1 : t.takeWhile Radix.hex.isDigit = []
  · rw [if_pos h1]
    have hn : ¬ HexPre (48 :: x :: t) := by
      rintro ⟨x', c, t', he, -, hc⟩
      simp only [List.cons.injEq, true_and] at he
      obtain ⟨rfl, rfl⟩ := he
      rw [List.takeWhile_cons, if_pos ((isDigit_iff .hex c).mpr hc)] at h1
      cases h1
    have hl := longest_plain .hex (48 :: x :: t) (fun _ => hn) (by rw [takeWhile48]; simp)
    rw [takeWhile48, dropWhile48, numVal48] at hl
    have e : (x :: t).takeWhile Radix.hex.isDigit = [] := by rcases hx with rfl | rfl <;> rfl
    rw [e, takeWhile_nil_dropWhile e] at hl
    exact ⟨_, _, hl, by simp [numVal], inRange_zero⟩
  · rw [if_neg h1]
    have hl := longest_hex x hx t h1
    by_cases h2 : InRange (sgn * (numVal Radix.hex.factor (t.takeWhile Radix.hex.isDigit) : Nat))
    · rw [if_pos h2]; exact ⟨_, _, hl, rfl, h2⟩
    · rw [if_neg h2]; exact ⟨_, _, _, hl, h2⟩

theorem hexPre_48 {y : Nat} {t : Str} (h1 : y ≠ 120) (h2 : y ≠ 88) : ¬ HexPre (48 :: y :: t) := by
  rintro ⟨x, c, t', he, hx, -⟩
  simp only [List.cons.injEq, true_and] at he
  obtain ⟨rfl, -⟩ := he
  rcases hx with rfl | rfl
  · exact h1 rfl
  · exact h2 rfl

theorem hexopt_ok (r : Radix) (sgn : Int) (hs : sgn = 1 ∨ sgn = -1) (s : Str) :
    UScanOk r.factor sgn s (hexopt r sgn s) := by
  unfold hexopt
  split
  · exact none_plain r [] rfl
  · rename_i after0
    by_cases hr : r = .hex
    · subst hr
      rw [if_neg (by simp)]
      split
      · have := getdigs_ok .hex sgn hs [] (fun _ => by rintro ⟨x, c, t, he, -⟩; cases he)
        exact this
      · exact getdigs_hex_ok sgn hs 120 (Or.inl rfl) _
      · exact getdigs_hex_ok sgn hs 88 (Or.inr rfl) _
      · rename_i inp h0 h1 h2
        apply getdigs_ok .hex sgn hs
        intro _
        cases after0 with
        | nil => exact absurd rfl h0
        | cons y t => exact hexPre_48 (by rintro rfl; exact h1 _ rfl) (by rintro rfl; exact h2 _ rfl)
    · rw [if_pos hr]
      exact getdigs_ok r sgn hs _ (fun h => absurd h hr)
  · rename_i inp h0 h1
    apply dig1_ok r sgn hs
    rintro - ⟨x, c, t, rfl, -⟩
    exact h1 _ rfl

theorem tilde_toNat : '~'.toNat = 126 ∧ '-'.toNat = 45 ∧ '+'.toNat = 43 ∧ '0'.toNat = 48 ∧ 'x'.toNat = 120 ∧
    'X'.toNat = 88 ∧ 'w'.toNat = 119 := by decide

theorem intLit_iff (b : Nat) (p : Str) (v : Int) : IntLit b p v ↔
    ∃ sg q n, p = sg ++ q ∧ (sg = [] ∨ sg = [126] ∨ sg = [45] ∨ sg = [43]) ∧ UL b q n ∧
      v = if sg = [126] ∨ sg = [45] then -(n : Int) else n := by
  obtain ⟨e1, e2, e3, e4, e5, e6, -⟩ := tilde_toNat
  unfold IntLit UL
  rw [e1, e2, e3, e4, e5, e6]
  constructor
  · rintro ⟨sg, pre, ds, rfl, h1, h2, h3, h4, h5⟩
    exact ⟨sg, pre ++ ds, _, rfl, h1, ⟨pre, ds, rfl, h2, h3, h4, rfl⟩, h5⟩
  · rintro ⟨sg, q, n, rfl, h1, ⟨pre, ds, rfl, h2, h3, h4, rfl⟩, h5⟩
    exact ⟨sg, pre, ds, rfl, h1, h2, h3, h4, h5⟩

theorem UL_head {b : Nat} (hb : b ≤ 16) {q : Str} {n : Nat} (h : UL b q n) : ∃ c t, q = c :: t ∧ IsDig 16 c := by
  obtain ⟨pre, ds, rfl, hpre, hds, hdig, -⟩ := h
  rcases hpre with rfl | ⟨-, rfl | rfl⟩
  · cases ds with
    | nil => exact absurd rfl hds
    | cons c t =>
      obtain ⟨d, h1, h2⟩ := hdig c (by simp)
      exact ⟨c, t, rfl, d, h1, by omega⟩
  · exact ⟨48, _, rfl, by decide⟩
  · exact ⟨48, _, rfl, by decide⟩

/-- what `Int.scan` must return for a source that starts with `s` after white space -/
def IScanOk (b : Nat) (s : Str) : Scan Int → Prop
  | .none => ∀ p rest v, s = p ++ rest → ¬ IntLit b p v
  | .some v rest => ∃ p, Longest (IntLit b) s p v rest ∧ InRange v
  | .overflow => ∃ p v rest, Longest (IntLit b) s p v rest ∧ ¬ InRange v

theorem not_sign {c : Nat} (h : IsDig 16 c) : c ≠ 126 ∧ c ≠ 45 ∧ c ≠ 43 := by
  refine ⟨?_, ?_, ?_⟩ <;> rintro rfl <;> revert h <;> decide

theorem signed_ok {b : Nat} (hb : b ≤ 16) (c : Nat) (hc : c = 126 ∨ c = 45 ∨ c = 43) (s : Str) (res : Scan Int)
    (h : UScanOk b (if c = 43 then 1 else -1) s res) : IScanOk b (c :: s) res := by
  have hsplit : ∀ p rest v, c :: s = p ++ rest → IntLit b p v →
      ∃ q n, p = c :: q ∧ s = q ++ rest ∧ UL b q n ∧ v = (if c = 43 then 1 else -1) * (n : Int) := by
    intro p rest v he hl
    obtain ⟨sg, q, n, rfl, hsg, hu, hv⟩ := (intLit_iff b p v).mp hl
    rcases hsg with rfl | hsg
    · exfalso
      obtain ⟨c', t, rfl, hd⟩ := UL_head hb hu
      have : c = c' := by simpa using (List.cons.inj he).1
      subst this
      have := not_sign hd
      omega
    · rcases hsg with rfl | rfl | rfl <;> simp only [List.cons_append, List.nil_append, List.cons.injEq] at he <;>
        obtain ⟨rfl, he⟩ := he <;> refine ⟨q, n, rfl, he, hu, ?_⟩ <;> simp at hv ⊢ <;> exact hv
  have hjoin : ∀ q n, UL b q n → IntLit b (c :: q) ((if c = 43 then 1 else -1) * (n : Int)) := by
    intro q n hu
    rw [intLit_iff]
    refine ⟨[c], q, n, rfl, ?_, hu, ?_⟩
    · rcases hc with rfl | rfl | rfl <;> simp
    · rcases hc with rfl | rfl | rfl <;> simp
  have hlong : ∀ p n rest, Longest (UL b) s p n rest →
      Longest (IntLit b) (c :: s) (c :: p) ((if c = 43 then 1 else -1) * (n : Int)) rest := by
    rintro p n rest ⟨h1, h2, h3⟩
    refine ⟨by rw [h1]; rfl, hjoin p n h2, ?_⟩
    intro p' rest' v' he hl
    obtain ⟨q, n', rfl, he', hu, -⟩ := hsplit p' rest' v' he hl
    have := h3 q rest' n' he' hu
    simpa using this
  cases res with
  | none =>
    intro p rest v he hl
    obtain ⟨q, n, rfl, he', hu, -⟩ := hsplit p rest v he hl
    exact h q rest n he' hu
  | some v rest =>
    obtain ⟨p, n, hl, rfl, hr⟩ := h
    exact ⟨_, hlong p n rest hl, hr⟩
  | overflow =>
    obtain ⟨p, n, rest, hl, hr⟩ := h
    exact ⟨_, _, rest, hlong p n rest hl, hr⟩

theorem unsigned_ok {b : Nat} (s : Str) (hs : ∀ c t, s = c :: t → c ≠ 126 ∧ c ≠ 45 ∧ c ≠ 43)
    (res : Scan Int) (h : UScanOk b 1 s res) : IScanOk b s res := by
  have hsplit : ∀ p rest v, s = p ++ rest → IntLit b p v → ∃ n, UL b p n ∧ v = (n : Int) := by
    intro p rest v he hl
    obtain ⟨sg, q, n, rfl, hsg, hu, hv⟩ := (intLit_iff b p v).mp hl
    rcases hsg with rfl | hsg
    · exact ⟨n, hu, by simpa using hv⟩
    · exfalso
      rcases hsg with rfl | rfl | rfl
      · exact (hs 126 _ he).1 rfl
      · exact (hs 45 _ he).2.1 rfl
      · exact (hs 43 _ he).2.2 rfl
  have hlong : ∀ p n rest, Longest (UL b) s p n rest → Longest (IntLit b) s p (1 * (n : Int)) rest := by
    rintro p n rest ⟨h1, h2, h3⟩
    refine ⟨h1, (intLit_iff _ _ _).mpr ⟨[], p, n, rfl, Or.inl rfl, h2, by simp⟩, ?_⟩
    intro p' rest' v' he hl
    obtain ⟨n', hu, -⟩ := hsplit p' rest' v' he hl
    exact h3 p' rest' n' he hu
  cases res with
  | none =>
    intro p rest v he hl
    obtain ⟨n, hu, -⟩ := hsplit p rest v he hl
    exact h p rest n he hu
  | some v rest =>
    obtain ⟨p, n, hl, rfl, hr⟩ := h
    exact ⟨_, hlong p n rest hl, hr⟩
  | overflow =>
    obtain ⟨p, n, rest, hl, hr⟩ := h
    exact ⟨_, _, rest, hlong p n rest hl, hr⟩

theorem intScan_ok (r : Radix) (src : Str) : IScanOk r.factor (src.dropWhile isSpace) (intScan r src) := by
  have hb := (factor_range r).2
  unfold intScan
  split
  · rename_i h
    rw [h]
    intro p rest v he hl
    obtain ⟨sg, q, n, rfl, -, hu, -⟩ := (intLit_iff _ p v).mp hl
    obtain ⟨c, t, rfl, -⟩ := UL_head hb hu
    simp at he
  · rename_i rest h
    rw [h]
    exact signed_ok hb 126 (by simp) rest _ (hexopt_ok r _ (Or.inr rfl) rest)
  · rename_i rest h
    rw [h]
    exact signed_ok hb 45 (by simp) rest _ (hexopt_ok r _ (Or.inr rfl) rest)
  · rename_i rest h
    rw [h]
    exact signed_ok hb 43 (by simp) rest _ (hexopt_ok r _ (Or.inl rfl) rest)
  · rename_i s h0 h1 h2 h3
    apply unsigned_ok
    · intro c t h
      exact ⟨by rintro rfl; exact h1 _ h, by rintro rfl; exact h2 _ h, by rintro rfl; exact h3 _ h⟩
    · exact hexopt_ok r _ (Or.inl rfl) _

end Mosml.Num
