import Verif.Util
import Mathlib.Logic.Relation

/-!
C34: src/mosmlyac/warshall.c with 32-bit words (`BITS_PER_WORD` 32, defs.h:81-84).  The matrix `R` is the list of its words, a pointer into
it the index of a word; an access outside the matrix, and a loop that does not end, is `none`.
-/
namespace Mosml.Yacc.Warshall

abbrev Mem := List (BitVec 32)

/-- defs.h:82 `WORDSIZE` -/
def wordsize (n : Nat) : Nat := (n + 31) / 32

/-- warshall.c:33-34 -/
def orLoop (m : Mem) (rowj rp rend : Nat) : Option Mem :=
  if rowj < rend then
    match m[rowj]?, m[rp]? with
    | some a, some b => orLoop (m.set rowj (a ||| b)) (rowj + 1) (rp + 1) rend
    | _, _ => none
  else some m
termination_by rend - rowj

/-- warshall.c:27-42 -/
def rowLoop (rowsize relend rowi : Nat) (mask : BitVec 32) (m : Mem) (ccol rowj : Nat) : Option Mem :=
  if rowj < relend then
    if rowsize = 0 then none
    else match m[ccol]? with
      | none => none
      | some w =>
        if w &&& mask ≠ 0 then
          match orLoop m rowj rowi (rowj + rowsize) with
          | none => none
          | some m => rowLoop rowsize relend rowi mask m (ccol + rowsize) (rowj + rowsize)
        else rowLoop rowsize relend rowi mask m (ccol + rowsize) (rowj + rowsize)
  else some m
termination_by relend - rowj

/-- warshall.c:22-52 -/
def colLoop (rowsize relend : Nat) (m : Mem) (cword : Nat) (mask : BitVec 32) (rowi : Nat) : Option Mem :=
  if rowi < relend then
    if rowsize = 0 then none
    else match rowLoop rowsize relend rowi mask m cword 0 with
      | none => none
      | some m =>
        let mask := mask <<< 1
        if mask = 0 then colLoop rowsize relend m (cword + 1) 1 (rowi + rowsize)
        else colLoop rowsize relend m cword mask (rowi + rowsize)
  else some m
termination_by relend - rowi

/-- warshall.c:3-53 -/
def transitive_closure (m : Mem) (n : Nat) : Option Mem :=
  let rowsize := wordsize n
  let relend := n * rowsize
  colLoop rowsize relend m 0 1 0

/-- warshall.c:69-80 -/
def diagLoop (rowsize relend : Nat) (m : Mem) (mask : BitVec 32) (rp : Nat) : Option Mem :=
  if rp < relend then
    if rowsize = 0 then none
    else match m[rp]? with
      | none => none
      | some w =>
        let m := m.set rp (w ||| mask)
        let mask := mask <<< 1
        if mask = 0 then diagLoop rowsize relend m 1 (rp + 1 + rowsize)
        else diagLoop rowsize relend m mask (rp + rowsize)
  else some m
termination_by relend - rp

/-- warshall.c:55-81 -/
def reflexive_transitive_closure (m : Mem) (n : Nat) : Option Mem := do
  let m ← transitive_closure m n
  let rowsize := wordsize n
  let relend := n * rowsize
  diagLoop rowsize relend m 1 0

/-! ### specification -/

/-- the bit in row `j` and column `k` (`BIT`, defs.h:83) -/
def bit (m : Mem) (n j k : Nat) : Bool := (m.getD (j * wordsize n + k / 32) 0).getLsbD (k % 32)

/-- the matrix as a relation on {0, …, n-1} -/
def Rel (m : Mem) (n : Nat) (j k : Nat) : Prop := j < n ∧ k < n ∧ bit m n j k = true

/-! ### Warshall's algorithm on relations -/

/-- one pivot -/
def T (R : Nat → Nat → Prop) : Nat → Nat → Nat → Prop
  | 0, j, k => R j k
  | i + 1, j, k => T R i j k ∨ (T R i j i ∧ T R i i k)

theorem T_comp (R : Nat → Nat → Prop) (i : Nat) : ∀ j m k, m < i → T R i j m → T R i m k → T R i j k := by
  induction i with
  | zero => intro j m k h; omega
  | succ i ih =>
    intro j m k hm h1 h2
    simp only [T] at *
    by_cases c : m = i
    · subst c
      right
      exact ⟨by tauto, by tauto⟩
    · have hm' : m < i := by omega
      rcases h1 with h1 | ⟨h1, h1'⟩ <;> rcases h2 with h2 | ⟨h2, h2'⟩
      · left; exact ih j m k hm' h1 h2
      · right; exact ⟨ih j m i hm' h1 h2, h2'⟩
      · right; exact ⟨h1, ih i m k hm' h1' h2⟩
      · right; exact ⟨h1, h2'⟩

theorem T_mono (R : Nat → Nat → Prop) (i j k : Nat) (h : R j k) : T R i j k := by
  induction i with
  | zero => exact h
  | succ i ih => exact .inl ih

theorem T_sound (R : Nat → Nat → Prop) (i : Nat) : ∀ j k, T R i j k → Relation.TransGen R j k := by
  induction i with
  | zero => intro j k h; exact .single h
  | succ i ih =>
    intro j k h
    rcases h with h | ⟨h1, h2⟩
    · exact ih j k h
    · exact (ih j i h1).trans (ih i k h2)

theorem T_complete (R : Nat → Nat → Prop) (n : Nat) (hR : ∀ j k, R j k → j < n) {j k : Nat} (h : Relation.TransGen R j k) : T R n j k := by
  induction h with
  | single h => exact T_mono R n _ _ h
  | tail h1 h2 ih => exact T_comp R n _ _ _ (hR _ _ h2) ih (T_mono R n _ _ h2)

/-! ### the loops -/

theorem getD_set (m : Mem) (p q : Nat) (w : BitVec 32) (hp : p < m.length) : (m.set p w).getD q 0 = if q = p then w else m.getD q 0 := by
  simp only [List.getD]
  by_cases c : q = p
  · subst c; simp [hp]
  · rw [if_neg c, List.getElem?_set_ne (by omega)]

theorem orLoop_spec (rowj rp rend : Nat) (m : Mem) (h1 : rend ≤ m.length) (h2 : rp + (rend - rowj) ≤ m.length)
    (hd : rp = rowj ∨ rend ≤ rp ∨ rp + (rend - rowj) ≤ rowj) :
    ∃ m', orLoop m rowj rp rend = some m' ∧ m'.length = m.length ∧
      ∀ q, m'.getD q 0 = if rowj ≤ q ∧ q < rend then m.getD q 0 ||| m.getD (rp + (q - rowj)) 0 else m.getD q 0 := by
  induction hk : rend - rowj generalizing rowj rp m with
  | zero =>
    refine ⟨m, ?_, rfl, ?_⟩
    · unfold orLoop; rw [if_neg (by omega)]
    · intro q; rw [if_neg (by omega)]
  | succ k ih =>
    have ha : rowj < m.length := by omega
    have hb : rp < m.length := by omega
    unfold orLoop
    rw [if_pos (by omega), List.getElem?_eq_getElem ha, List.getElem?_eq_getElem hb]
    dsimp only
    obtain ⟨m', e1, e2, e3⟩ := ih (rowj + 1) (rp + 1) (m.set rowj (m[rowj] ||| m[rp])) (by simp; omega) (by simp; omega) (by omega) (by omega)
    refine ⟨m', e1, by simpa using e2, ?_⟩
    intro q
    rw [e3 q, getD_set _ _ _ _ ha, getD_set _ _ _ _ ha]
    have hga : m[rowj] = m.getD rowj 0 := by simp [List.getD, ha]
    have hgb : m[rp] = m.getD rp 0 := by simp [List.getD, hb]
    rw [hga, hgb]
    by_cases c : q = rowj
    · subst c
      rw [if_neg (by omega), if_pos rfl, if_pos (by omega)]
      simp
    · rw [if_neg c]
      by_cases c2 : rowj + 1 ≤ q ∧ q < rend
      · have : rp + 1 + (q - (rowj + 1)) = rp + (q - rowj) := by omega
        rw [if_pos c2, this, if_neg (by omega), if_pos (by omega)]
      · rw [if_neg c2, if_neg (by omega)]

theorem mask_bit (w : BitVec 32) (b : Nat) (hb : b < 32) : (w &&& ((1 : BitVec 32) <<< b) ≠ 0) ↔ w.getLsbD b = true := by
  constructor
  · intro h
    by_contra c
    apply h
    apply BitVec.eq_of_getLsbD_eq
    intro i hi
    simp only [BitVec.getLsbD_and, BitVec.getLsbD_shiftLeft]
    by_cases e : i = b
    · subst e; simp at c; simp [c]
    · by_cases e2 : i < b
      · simp [e2]
      · have : ¬ (i - b = 0) := by omega
        simp [this]
  · intro h e
    have := congrArg (fun v => BitVec.getLsbD v b) e
    simp only [BitVec.getLsbD_and, BitVec.getLsbD_shiftLeft, h] at this
    simp [hb] at this

theorem mask_next (b : Nat) (hb : b < 32) : ((1 : BitVec 32) <<< b) <<< 1 = (if b = 31 then 0 else (1 : BitVec 32) <<< (b + 1)) ∧
    ((1 : BitVec 32) <<< (b + 1) = 0 ↔ 31 ≤ b) := by
  have h1 : ((1 : BitVec 32) <<< b) <<< 1 = (1 : BitVec 32) <<< (b + 1) := by
    rw [← BitVec.shiftLeft_add]
  have h2 : ((1 : BitVec 32) <<< (b + 1) = 0 ↔ 31 ≤ b) := by
    constructor
    · intro h
      by_contra c
      have := congrArg (fun v => BitVec.getLsbD v (b + 1)) h
      have hb : b + 1 < 32 := by omega
      simp [hb] at this
    · intro h
      have : b = 31 := by omega
      subst this; decide
  refine ⟨?_, h2⟩
  rw [h1]
  by_cases c : b = 31
  · rw [if_pos c]; exact h2.2 (by omega)
  · rw [if_neg c]

/-- all words of row `j` -/
def row (m : Mem) (rs j w : Nat) : BitVec 32 := m.getD (j * rs + w) 0

theorem row_lt {rs n j : Nat} (hj : j < n) : j * rs + rs ≤ n * rs := by
  have : (j + 1) * rs ≤ n * rs := Nat.mul_le_mul_right _ (by omega)
  rw [Nat.add_mul, Nat.one_mul] at this; exact this

/-- the position of a word determines its row -/
theorem pos_row {rs j q : Nat} (h1 : j * rs ≤ q) (h2 : q < j * rs + rs) (j' w : Nat) (hw : w < rs) (e : q = j' * rs + w) : j' = j ∧ w = q - j * rs := by
  subst e
  have : j' = j := by
    rcases Nat.lt_trichotomy j' j with h | h | h
    · have := row_lt (rs := rs) h; omega
    · exact h
    · have := row_lt (rs := rs) h; omega
  subst this
  exact ⟨rfl, by omega⟩

theorem rowLoop_spec (n rs i b cw : Nat) (hrs : 0 < rs) (hi : i < n) (hb : b < 32) (hcw : cw < rs) (d : Nat) :
    ∀ (j : Nat) (m : Mem), n - j = d → j ≤ n → m.length = n * rs →
    ∃ m', rowLoop rs (n * rs) (i * rs) ((1 : BitVec 32) <<< b) m (j * rs + cw) (j * rs) = some m' ∧ m'.length = n * rs ∧
      ∀ j' w, j' < n → w < rs → row m' rs j' w = if j ≤ j' ∧ (row m rs j' cw).getLsbD b then row m rs j' w ||| row m rs i w else row m rs j' w := by
  induction d with
  | zero =>
    intro j m hd hj hm
    have : j = n := by omega
    subst this
    refine ⟨m, ?_, hm, ?_⟩
    · unfold rowLoop; rw [if_neg (by omega)]
    · intro j' w hj' _; rw [if_neg (by omega)]
  | succ d ih =>
    intro j m hd hj hm
    have hjn : j < n := by omega
    have hrl := row_lt (rs := rs) hjn
    have hil := row_lt (rs := rs) hi
    have hcc : j * rs + cw < m.length := by omega
    have hs1 : j * rs + cw + rs = (j + 1) * rs + cw := by rw [Nat.add_mul]; omega
    have hs2 : j * rs + rs = (j + 1) * rs := by rw [Nat.add_mul]; omega
    unfold rowLoop
    rw [if_pos (by omega), if_neg (by omega), List.getElem?_eq_getElem hcc]
    dsimp only
    have hget : m[j * rs + cw] = row m rs j cw := by simp [row, List.getD, hcc]
    rw [hget]
    by_cases c : (row m rs j cw).getLsbD b = true
    · rw [if_pos ((mask_bit _ b hb).2 c)]
      have hdisj : i * rs = j * rs ∨ j * rs + rs ≤ i * rs ∨ i * rs + (j * rs + rs - j * rs) ≤ j * rs := by
        rcases Nat.lt_trichotomy i j with h | h | h
        · have := row_lt (rs := rs) h; omega
        · subst h; left; rfl
        · have := row_lt (rs := rs) h; omega
      obtain ⟨m1, e1, e2, e3⟩ := orLoop_spec (j * rs) (i * rs) (j * rs + rs) m (by omega) (by omega) hdisj
      rw [e1]
      dsimp only
      rw [hs1, hs2]
      obtain ⟨m', f1, f2, f3⟩ := ih (j + 1) m1 (by omega) (by omega) (by omega)
      refine ⟨m', f1, f2, ?_⟩
      have r1 : ∀ j' w, w < rs → row m1 rs j' w = if j' = j then row m rs j w ||| row m rs i w else row m rs j' w := by
        intro j' w hw
        unfold row
        rw [e3]
        by_cases cj : j' = j
        · subst cj
          rw [if_pos (by omega), if_pos rfl]
          congr 2
          omega
        · rw [if_neg cj, if_neg]
          rintro ⟨g1, g2⟩
          exact cj (pos_row g1 g2 j' w hw rfl).1
      have ri : ∀ w, w < rs → row m1 rs i w = row m rs i w := by
        intro w hw
        rw [r1 i w hw]
        by_cases ci : i = j
        · rw [if_pos ci, ← ci]; simp
        · rw [if_neg ci]
      intro j' w hj' hw
      rw [f3 j' w hj' hw, ri w hw, r1 j' w hw, r1 j' cw hcw]
      by_cases cj : j' = j
      · subst cj
        rw [if_neg (by omega), if_pos rfl, if_pos ⟨le_refl _, c⟩]
      · rw [if_neg cj, if_neg cj]
        by_cases cg : j + 1 ≤ j' ∧ (row m rs j' cw).getLsbD b = true
        · rw [if_pos cg, if_pos ⟨by omega, cg.2⟩]
        · rw [if_neg cg, if_neg (by rintro ⟨g1, g2⟩; exact cg ⟨by omega, g2⟩)]
    · rw [if_neg (by rw [mask_bit _ b hb]; exact c), hs1, hs2]
      obtain ⟨m', f1, f2, f3⟩ := ih (j + 1) m (by omega) (by omega) hm
      refine ⟨m', f1, f2, ?_⟩
      intro j' w hj' hw
      rw [f3 j' w hj' hw]
      by_cases cg : j + 1 ≤ j' ∧ (row m rs j' cw).getLsbD b = true
      · rw [if_pos cg, if_pos ⟨by omega, cg.2⟩]
      · rw [if_neg cg, if_neg]
        rintro ⟨g1, g2⟩
        by_cases cj : j' = j
        · subst cj; exact c g2
        · exact cg ⟨by omega, g2⟩

theorem wordsize_pos {n : Nat} (h : 0 < n) : 0 < wordsize n := by unfold wordsize; omega

theorem col_word {n k : Nat} (h : k < n) : k / 32 < wordsize n := by unfold wordsize; omega

theorem bit_eq (m : Mem) (n j k : Nat) : bit m n j k = (row m (wordsize n) j (k / 32)).getLsbD (k % 32) := rfl

theorem colLoop_spec (n : Nat) (R : Nat → Nat → Prop) (d : Nat) :
    ∀ (i : Nat) (m : Mem), n - i = d → i ≤ n → m.length = n * wordsize n → (∀ j k, j < n → k < n → (bit m n j k = true ↔ T R i j k)) →
    ∃ m', colLoop (wordsize n) (n * wordsize n) m (i / 32) ((1 : BitVec 32) <<< (i % 32)) (i * wordsize n) = some m' ∧ m'.length = n * wordsize n ∧
      ∀ j k, j < n → k < n → (bit m' n j k = true ↔ T R n j k) := by
  induction d with
  | zero =>
    intro i m hd hi hm hb
    have : i = n := by omega
    subst this
    refine ⟨m, ?_, hm, hb⟩
    unfold colLoop; rw [if_neg (by omega)]
  | succ d ih =>
    intro i m hd hi hm hb
    have hin : i < n := by omega
    have hw := wordsize_pos (n := n) (by omega)
    have hcw := col_word hin
    have hrl := row_lt (rs := wordsize n) hin
    obtain ⟨m1, e1, e2, e3⟩ := rowLoop_spec n (wordsize n) i (i % 32) (i / 32) hw hin (Nat.mod_lt _ (by omega)) hcw n 0 m (by omega) (by omega) hm
    rw [Nat.zero_mul, Nat.zero_add] at e1
    have hb1 : ∀ j k, j < n → k < n → (bit m1 n j k = true ↔ T R (i + 1) j k) := by
      intro j k hj hk
      rw [bit_eq, e3 j (k / 32) hj (col_word hk)]
      simp only [T]
      rw [← hb j k hj hk, ← hb j i hj hin, ← hb i k hin hk, bit_eq, bit_eq, bit_eq]
      by_cases c : (row m (wordsize n) j (i / 32)).getLsbD (i % 32) = true
      · rw [if_pos ⟨by omega, c⟩]
        simp [c]
      · rw [if_neg (by rintro ⟨_, g⟩; exact c g)]
        simp [c]
    obtain ⟨m', f1, f2, f3⟩ := ih (i + 1) m1 (by omega) (by omega) e2 hb1
    refine ⟨m', ?_, f2, f3⟩
    unfold colLoop
    rw [if_pos (by omega), if_neg (by omega), e1]
    dsimp only
    obtain ⟨n1, n2⟩ := mask_next (i % 32) (Nat.mod_lt _ (by omega))
    have hsz : i * wordsize n + wordsize n = (i + 1) * wordsize n := by rw [Nat.add_mul]; omega
    rw [n1, hsz]
    by_cases c : i % 32 = 31
    · rw [if_pos c, if_pos rfl]
      have g1 : (i + 1) / 32 = i / 32 + 1 := by omega
      have g2 : (i + 1) % 32 = 0 := by omega
      rw [g1, g2] at f1
      exact f1
    · rw [if_neg c, if_neg (by rw [n2]; omega)]
      have g1 : (i + 1) / 32 = i / 32 := by omega
      have g2 : (i + 1) % 32 = i % 32 + 1 := by omega
      rw [g1, g2] at f1
      exact f1

theorem transitive_closure_spec (m : Mem) (n : Nat) (hm : m.length = n * wordsize n) :
    ∃ m', transitive_closure m n = some m' ∧ m'.length = n * wordsize n ∧
      ∀ j k, j < n → k < n → (bit m' n j k = true ↔ Relation.TransGen (Rel m n) j k) := by
  obtain ⟨m', e1, e2, e3⟩ := colLoop_spec n (Rel m n) n 0 m (by omega) (by omega) hm (by intro j k hj hk; simp [T, Rel, hj, hk])
  refine ⟨m', ?_, e2, ?_⟩
  · unfold transitive_closure
    rw [Nat.zero_div, Nat.zero_mod, Nat.zero_mul] at e1
    exact e1
  · intro j k hj hk
    rw [e3 j k hj hk]
    exact ⟨T_sound _ n j k, T_complete _ n (fun _ _ h => h.1)⟩

theorem diagLoop_spec (n : Nat) (d : Nat) :
    ∀ (i : Nat) (m : Mem), n - i = d → i ≤ n → m.length = n * wordsize n →
    ∃ m', diagLoop (wordsize n) (n * wordsize n) m ((1 : BitVec 32) <<< (i % 32)) (i * wordsize n + i / 32) = some m' ∧ m'.length = n * wordsize n ∧
      ∀ j k, j < n → k < n → (bit m' n j k = true ↔ bit m n j k = true ∨ (j = k ∧ i ≤ j)) := by
  induction d with
  | zero =>
    intro i m hd hi hm
    have : i = n := by omega
    subst this
    refine ⟨m, ?_, hm, ?_⟩
    · unfold diagLoop; rw [if_neg (by omega)]
    · intro j k hj hk; constructor
      · exact .inl
      · rintro (h | ⟨_, h⟩); · exact h
        omega
  | succ d ih =>
    intro i m hd hi hm
    have hin : i < n := by omega
    have hw := wordsize_pos (n := n) (by omega)
    have hcw := col_word hin
    have hrl := row_lt (rs := wordsize n) hin
    have hp : i * wordsize n + i / 32 < m.length := by omega
    let m1 : Mem := m.set (i * wordsize n + i / 32) (m[i * wordsize n + i / 32] ||| (1 : BitVec 32) <<< (i % 32))
    obtain ⟨m', f1, f2, f3⟩ := ih (i + 1) m1 (by omega) (by omega) (by simp [m1, hm])
    refine ⟨m', ?_, f2, ?_⟩
    · unfold diagLoop
      rw [if_pos (by omega), if_neg (by omega), List.getElem?_eq_getElem hp]
      dsimp only
      obtain ⟨n1, n2⟩ := mask_next (i % 32) (Nat.mod_lt _ (by omega))
      have hsz : (i + 1) * wordsize n = i * wordsize n + wordsize n := by rw [Nat.add_mul]; omega
      rw [n1]
      by_cases c : i % 32 = 31
      · rw [if_pos c, if_pos rfl]
        have g1 : (i + 1) / 32 = i / 32 + 1 := by omega
        have g2 : (i + 1) % 32 = 0 := by omega
        rw [g1, g2, hsz] at f1
        have g3 : i * wordsize n + i / 32 + 1 + wordsize n = i * wordsize n + wordsize n + (i / 32 + 1) := by omega
        rw [g3]
        exact f1
      · rw [if_neg c, if_neg (by rw [n2]; omega)]
        have g1 : (i + 1) / 32 = i / 32 := by omega
        have g2 : (i + 1) % 32 = i % 32 + 1 := by omega
        rw [g1, g2, hsz] at f1
        have g3 : i * wordsize n + i / 32 + wordsize n = i * wordsize n + wordsize n + i / 32 := by omega
        rw [g3]
        exact f1
    · intro j k hj hk
      rw [f3 j k hj hk]
      have hbit : bit m1 n j k = true ↔ bit m n j k = true ∨ (j = i ∧ k = i) := by
        unfold bit
        simp only [m1]
        rw [getD_set _ _ _ _ hp]
        by_cases c : j * wordsize n + k / 32 = i * wordsize n + i / 32
        · obtain ⟨c1, c2⟩ := pos_row (rs := wordsize n) (j := i) (q := j * wordsize n + k / 32) (by omega) (by omega) j (k / 32) (col_word hk) rfl
          subst c1
          have ck : k / 32 = j / 32 := by omega
          rw [if_pos c, ck]
          have hg : m[j * wordsize n + j / 32] = m.getD (j * wordsize n + j / 32) 0 := by simp [List.getD, hp]
          rw [hg, BitVec.getLsbD_or, BitVec.getLsbD_shiftLeft, Bool.or_eq_true]
          have h32 : k % 32 < 32 := Nat.mod_lt _ (by omega)
          apply or_congr Iff.rfl
          simp only [h32, decide_true, Bool.true_and, Bool.and_eq_true, Bool.not_eq_true', decide_eq_false_iff_not]
          constructor
          · rintro ⟨g1, g2⟩
            have : k % 32 - j % 32 = 0 := by
              by_contra hne
              have : (1 : BitVec 32).getLsbD (k % 32 - j % 32) = false := by simp [hne]
              rw [this] at g2; cases g2
            exact ⟨trivial, by omega⟩
          · rintro ⟨_, rfl⟩
            simp
        · rw [if_neg c]
          constructor
          · exact .inl
          · rintro (h | ⟨rfl, rfl⟩)
            · exact h
            · exact absurd rfl c
      rw [hbit]
      constructor
      · rintro ((h | ⟨rfl, rfl⟩) | ⟨rfl, h⟩)
        · exact .inl h
        · exact .inr ⟨rfl, le_refl _⟩
        · exact .inr ⟨rfl, by omega⟩
      · rintro (h | ⟨rfl, h⟩)
        · exact .inl (.inl h)
        · by_cases e : j = i
          · exact .inl (.inr ⟨e, e⟩)
          · exact .inr ⟨rfl, by omega⟩

/-! ### properties -/

/-- C34: for every `n` and every matrix of the right size, `transitive_closure` stays within the matrix, ends, and leaves exactly the
transitive closure of the relation in it. -/
theorem C34_transitive (m : Mem) (n : Nat) (hm : m.length = n * wordsize n) :
    ∃ m', transitive_closure m n = some m' ∧ m'.length = m.length ∧ ∀ j k, j < n → k < n → (bit m' n j k = true ↔ Relation.TransGen (Rel m n) j k) := by
  obtain ⟨m', h1, h2, h3⟩ := transitive_closure_spec m n hm
  exact ⟨m', h1, by rw [h2, hm], h3⟩

/-- C34: and `reflexive_transitive_closure` the reflexive-transitive closure -/
theorem C34_reflexive (m : Mem) (n : Nat) (hm : m.length = n * wordsize n) :
    ∃ m', reflexive_transitive_closure m n = some m' ∧ m'.length = m.length ∧
      ∀ j k, j < n → k < n → (bit m' n j k = true ↔ Relation.ReflTransGen (Rel m n) j k) := by
  obtain ⟨m1, h1, h2, h3⟩ := transitive_closure_spec m n hm
  obtain ⟨m', g1, g2, g3⟩ := diagLoop_spec n n 0 m1 (by omega) (by omega) h2
  rw [Nat.zero_div, Nat.zero_mod, Nat.zero_mul] at g1
  refine ⟨m', ?_, by rw [g2, hm], ?_⟩
  · unfold reflexive_transitive_closure
    rw [h1]
    exact g1
  · intro j k hj hk
    rw [g3 j k hj hk, h3 j k hj hk, Relation.reflTransGen_iff_eq_or_transGen]
    constructor
    · rintro (h | ⟨rfl, _⟩)
      · exact .inr h
      · exact .inl rfl
    · rintro (rfl | h)
      · exact .inr ⟨rfl, by omega⟩
      · exact .inl h

example : transitive_closure [2, 4, 8, 1] 4 = some [15, 15, 15, 15] := by decide +kernel

end Mosml.Yacc.Warshall
