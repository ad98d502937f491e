import Verif.Util

/-!
C47: the scanning functions of src/mosmllib/Strbase.mlp, which `Substring` and `String` export.  Positions and lengths are natural
numbers without bound (strings are shorter than 2^57).  `get_nth_char` does not check its index: outside the string it is `none`.
The predicates are total and without effects.
-/
namespace Mosml.Lib.Substring

/-- Substring.sml:3-9 (`type substring = string * int * int`) -/
structure Sub where
  s : List Char
  i : Nat
  n : Nat
  deriving DecidableEq

/-- Strbase.mlp:64-66 -/
def scanL (pred : Char → Bool) (s : List Char) (stop j : Nat) : Option Nat :=
  if j < stop then
    match s[j]? with
    | none => none
    | some c => if pred c then scanL pred s stop (j + 1) else some j
  else some j
termination_by stop - j

/-- Strbase.mlp:60-68: the number `scan i - i` -/
def scanl (pred : Char → Bool) (ss : Sub) : Option Nat := do some ((← scanL pred ss.s (ss.i + ss.n) ss.i) - ss.i)

/-- Strbase.mlp:72-73; the argument is `j + 1`, as `j` can be -1 -/
def scanR (pred : Char → Bool) (s : List Char) (i : Nat) : Nat → Option Nat
  | 0 => some 0
  | j + 1 =>
    if j + 1 > i then
      match s[j]? with
      | none => none
      | some c => if pred c then scanR pred s i j else some (j + 1)
    else some (j + 1)

/-- Strbase.mlp:69-77: the number `scan (i+n-1) - i + 1` -/
def scanr (pred : Char → Bool) (ss : Sub) : Option Nat := do some ((← scanR pred ss.s ss.i (ss.i + ss.n)) - ss.i)

/-- Strbase.mlp:79 -/
def splitl (p : Char → Bool) (ss : Sub) : Option (Sub × Sub) := do
  let k ← scanl p ss
  some (⟨ss.s, ss.i, k⟩, ⟨ss.s, ss.i + k, ss.n - k⟩)

/-- Strbase.mlp:80 -/
def splitr (p : Char → Bool) (ss : Sub) : Option (Sub × Sub) := do
  let k ← scanr p ss
  some (⟨ss.s, ss.i, k⟩, ⟨ss.s, ss.i + k, ss.n - k⟩)

/-- Strbase.mlp:81 -/
def dropl (p : Char → Bool) (ss : Sub) : Option Sub := do
  let k ← scanl p ss
  some ⟨ss.s, ss.i + k, ss.n - k⟩

/-- Strbase.mlp:82 -/
def dropr (p : Char → Bool) (ss : Sub) : Option Sub := do
  let k ← scanr p ss
  some ⟨ss.s, ss.i, k⟩

/-- Strbase.mlp:83 -/
def takel (p : Char → Bool) (ss : Sub) : Option Sub := do
  let k ← scanl p ss
  some ⟨ss.s, ss.i, k⟩

/-- Strbase.mlp:84 -/
def taker (p : Char → Bool) (ss : Sub) : Option Sub := do
  let k ← scanr p ss
  some ⟨ss.s, ss.i + k, ss.n - k⟩

/-- Strbase.mlp:89-94.  `h` calls itself with shorter substrings; the fuel is only there to show that to Lean (`none` when it is used up). -/
def tokensLoop (isDelim : Char → Bool) : Nat → Sub → List Sub → Option (List Sub)
  | 0, _, _ => none
  | fuel + 1, remains, res =>
    if remains.n = 0 then some res.reverse
    else do
      let (token, aftertoken) ← splitl (fun c => !isDelim c) remains
      let r ← dropl isDelim aftertoken
      tokensLoop isDelim fuel r (token :: res)

/-- Strbase.mlp:87-95; `n + 1` calls are enough -/
def tokens (isDelim : Char → Bool) (ss : Sub) : Option (List Sub) := do
  let r ← dropl isDelim ss
  tokensLoop isDelim (ss.n + 1) r []

/-- Strbase.mlp:39-40 -/
def rest (ss : Sub) : Sub := if ss.n = 0 then ss else ⟨ss.s, ss.i + 1, ss.n - 1⟩

/-- Strbase.mlp:98-104 -/
def fieldsLoop (isDelim : Char → Bool) : Nat → Sub → List Sub → Option (List Sub)
  | 0, _, _ => none
  | fuel + 1, ss, res => do
    let (field, afterfield) ← splitl (fun c => !isDelim c) ss
    (if afterfield.n = 0 then some (field :: res).reverse
     else fieldsLoop isDelim fuel (rest afterfield) (field :: res) : Option _)

/-- Strbase.mlp:97-105; `n + 1` calls are enough -/
def fields (isDelim : Char → Bool) (ss : Sub) : Option (List Sub) := fieldsLoop isDelim (ss.n + 1) ss []

/-! ### specification -/

/-- the characters of a substring -/
def text (ss : Sub) : List Char := (ss.s.drop ss.i).take ss.n

/-- a substring lies within its string -/
def Valid (ss : Sub) : Prop := ss.i + ss.n ≤ ss.s.length

/-- `a` and then `b` make up `ss` -/
def Adjacent (a b ss : Sub) : Prop :=
  Valid a ∧ Valid b ∧ a.s = ss.s ∧ b.s = ss.s ∧ a.i = ss.i ∧ b.i = a.i + a.n ∧ a.n + b.n = ss.n

/-- `w` is a sequence of fields separated by single delimiters -/
inductive IsFields (d : Char → Bool) : List Char → List (List Char) → Prop
  | last {f} : (∀ c ∈ f, d c = false) → IsFields d f [f]
  | cons {f x w fs} : (∀ c ∈ f, d c = false) → d x = true → IsFields d w fs → IsFields d (f ++ x :: w) (f :: fs)

/-- `w` is a sequence of nonempty tokens with delimiters before, after and, at least one, between them -/
inductive IsTokens (d : Char → Bool) : List Char → List (List Char) → Prop
  | none {ds} : (∀ c ∈ ds, d c = true) → IsTokens d ds []
  | last {ds t ds'} : (∀ c ∈ ds, d c = true) → t ≠ [] → (∀ c ∈ t, d c = false) → (∀ c ∈ ds', d c = true) → IsTokens d (ds ++ t ++ ds') [t]
  | cons {ds t x w ts} : (∀ c ∈ ds, d c = true) → t ≠ [] → (∀ c ∈ t, d c = false) → d x = true → IsTokens d w ts → IsTokens d (ds ++ t ++ x :: w) (t :: ts)

/-! ### lemmas -/

theorem text_length {ss : Sub} (h : Valid ss) : (text ss).length = ss.n := by
  unfold Valid at h
  simp [text]; omega

theorem text_append {a b ss : Sub} (h : Adjacent a b ss) : text a ++ text b = text ss := by
  obtain ⟨_, _, h1, h2, h3, h4, h5⟩ := h
  unfold text
  rw [h1, h2, h4, h3, ← h5, List.take_add, List.drop_drop]

theorem scanL_spec (p : Char → Bool) (s : List Char) (stop j : Nat) (hs : stop ≤ s.length) (hj : j ≤ stop) :
    ∃ k, scanL p s stop j = some k ∧ j ≤ k ∧ k ≤ stop ∧ (∀ m (h : m < s.length), j ≤ m → m < k → p s[m] = true) ∧
      (∀ h : k < s.length, k < stop → p s[k] = false) := by
  fun_induction scanL p s stop j with
  | case1 j h1 h2 => simp at h2; omega
  | case2 j h1 c h2 h3 ih =>
    obtain ⟨k, e1, e2, e3, e4, e5⟩ := ih (by omega)
    refine ⟨k, e1, by omega, e3, ?_, e5⟩
    intro m h h4 h5
    by_cases e : m = j
    · subst e; rw [List.getElem?_eq_getElem h] at h2; cases h2; exact h3
    · exact e4 m h (by omega) h5
  | case3 j h1 c h2 h3 =>
    refine ⟨j, rfl, le_refl _, hj, by intro m _ _ _; omega, ?_⟩
    intro h _
    rw [List.getElem?_eq_getElem h] at h2; cases h2; simpa using h3
  | case4 j h1 => exact ⟨j, rfl, le_refl _, hj, by intro m _ _ _; omega, by intro _ _; omega⟩

theorem scanR_spec (p : Char → Bool) (s : List Char) (i j : Nat) (hs : j ≤ s.length) (hj : i ≤ j) :
    ∃ k, scanR p s i j = some k ∧ i ≤ k ∧ k ≤ j ∧ (∀ m (h : m < s.length), k ≤ m → m < j → p s[m] = true) ∧
      (∀ h : k - 1 < s.length, i < k → p s[k - 1] = false) := by
  induction j with
  | zero => exact ⟨0, rfl, hj, le_refl _, by intro m _ _ _; omega, by intro _ _; omega⟩
  | succ j ih =>
    unfold scanR
    by_cases c : j + 1 > i
    · rw [if_pos c, List.getElem?_eq_getElem (by omega)]
      dsimp only
      by_cases c2 : p s[j] = true
      · rw [if_pos c2]
        obtain ⟨k, e1, e2, e3, e4, e5⟩ := ih (by omega) (by omega)
        refine ⟨k, e1, e2, by omega, ?_, e5⟩
        intro m h h4 h5
        by_cases e : m = j
        · subst e; exact c2
        · exact e4 m h h4 (by omega)
      · rw [if_neg c2]
        refine ⟨j + 1, rfl, by omega, le_refl _, by intro m _ _ _; omega, ?_⟩
        intro h _; simpa using c2
    · rw [if_neg c]
      exact ⟨j + 1, rfl, by omega, le_refl _, by intro m _ _ _; omega, by intro _ _; omega⟩

theorem mem_text {ss : Sub} {c : Char} (h : c ∈ text ss) : ∃ m, ∃ hm : m < ss.s.length, ss.i ≤ m ∧ m < ss.i + ss.n ∧ c = ss.s[m] := by
  unfold text at h
  rw [List.mem_iff_getElem] at h
  obtain ⟨m, hm, e⟩ := h
  simp only [List.length_take, List.length_drop] at hm
  refine ⟨ss.i + m, by omega, by omega, by omega, ?_⟩
  rw [← e]; simp

theorem text_cons {ss : Sub} (h : Valid ss) (hn : 0 < ss.n) : ∃ hm : ss.i < ss.s.length, text ss = ss.s[ss.i] :: text ⟨ss.s, ss.i + 1, ss.n - 1⟩ := by
  unfold Valid at h
  refine ⟨by omega, ?_⟩
  obtain ⟨s, i, n⟩ := ss
  dsimp only at h hn ⊢
  obtain ⟨m, rfl⟩ : ∃ m, n = m + 1 := ⟨n - 1, by omega⟩
  unfold text
  dsimp only
  rw [List.drop_eq_getElem_cons (by omega), List.take_succ_cons]; rfl

theorem text_snoc {ss : Sub} (h : Valid ss) (hn : 0 < ss.n) : ∃ hm : ss.i + ss.n - 1 < ss.s.length, text ss = text ⟨ss.s, ss.i, ss.n - 1⟩ ++ [ss.s[ss.i + ss.n - 1]] := by
  have hv := h
  unfold Valid at h
  refine ⟨by omega, ?_⟩
  obtain ⟨s, i, n⟩ := ss
  dsimp only at h hn ⊢
  obtain ⟨m, rfl⟩ : ∃ m, n = m + 1 := ⟨n - 1, by omega⟩
  unfold text
  dsimp only
  simp only [Nat.add_sub_cancel]
  rw [List.take_succ, List.getElem?_eq_getElem (by simp; omega)]
  simp [← Nat.add_assoc]

theorem scanl_spec (p : Char → Bool) {ss : Sub} (h : Valid ss) : ∃ k, scanl p ss = some k ∧ k ≤ ss.n ∧
    (∀ c ∈ text ⟨ss.s, ss.i, k⟩, p c = true) ∧ (∀ c ∈ (text ⟨ss.s, ss.i + k, ss.n - k⟩).head?, p c = false) := by
  obtain ⟨k, e1, e2, e3, e4, e5⟩ := scanL_spec p ss.s (ss.i + ss.n) ss.i h (by omega)
  refine ⟨k - ss.i, by unfold scanl; rw [e1]; rfl, by omega, ?_, ?_⟩
  · intro c hc
    obtain ⟨m, hm, m1, m2, rfl⟩ := mem_text hc
    dsimp only at m1 m2 hm ⊢
    exact e4 m hm m1 (by omega)
  · intro c hc
    unfold Valid at h
    by_cases hn : 0 < ss.n - (k - ss.i)
    · obtain ⟨hm, e⟩ := text_cons (ss := ⟨ss.s, ss.i + (k - ss.i), ss.n - (k - ss.i)⟩) (by unfold Valid; dsimp only; omega) hn
      rw [e] at hc
      simp only [List.head?_cons, Option.mem_def, Option.some.injEq] at hc
      subst hc
      have : ss.i + (k - ss.i) = k := by omega
      simp only [this] at hm ⊢
      exact e5 hm (by omega)
    · have : ss.n - (k - ss.i) = 0 := by omega
      simp [text, this] at hc

theorem scanr_spec (p : Char → Bool) {ss : Sub} (h : Valid ss) : ∃ k, scanr p ss = some k ∧ k ≤ ss.n ∧
    (∀ c ∈ text ⟨ss.s, ss.i + k, ss.n - k⟩, p c = true) ∧ (∀ c ∈ (text ⟨ss.s, ss.i, k⟩).getLast?, p c = false) := by
  obtain ⟨k, e1, e2, e3, e4, e5⟩ := scanR_spec p ss.s ss.i (ss.i + ss.n) h (by omega)
  refine ⟨k - ss.i, by unfold scanr; rw [e1]; rfl, by omega, ?_, ?_⟩
  · intro c hc
    obtain ⟨m, hm, m1, m2, rfl⟩ := mem_text hc
    dsimp only at m1 m2 hm ⊢
    exact e4 m hm (by omega) (by omega)
  · intro c hc
    unfold Valid at h
    by_cases hn : 0 < k - ss.i
    · obtain ⟨hm, e⟩ := text_snoc (ss := ⟨ss.s, ss.i, k - ss.i⟩) (by unfold Valid; dsimp only; omega) hn
      rw [e] at hc
      simp only [List.getLast?_append, List.getLast?_singleton, Option.mem_def, Option.some_or, Option.some.injEq] at hc
      subst hc
      have : ss.i + (k - ss.i) = k := by omega
      simp only [this] at hm ⊢
      exact e5 hm (by omega)
    · have : k - ss.i = 0 := by omega
      simp [text, this] at hc

theorem adj (ss : Sub) (h : Valid ss) (k : Nat) (hk : k ≤ ss.n) : Adjacent ⟨ss.s, ss.i, k⟩ ⟨ss.s, ss.i + k, ss.n - k⟩ ss := by
  unfold Valid at h
  unfold Adjacent Valid
  dsimp only
  refine ⟨by omega, by omega, rfl, rfl, rfl, rfl, by omega⟩

theorem splitl_spec (p : Char → Bool) {ss : Sub} (h : Valid ss) : ∃ a b, splitl p ss = some (a, b) ∧ Adjacent a b ss ∧
    (∀ c ∈ text a, p c = true) ∧ (∀ c ∈ (text b).head?, p c = false) := by
  obtain ⟨k, e1, e2, e3, e4⟩ := scanl_spec p h
  exact ⟨_, _, by unfold splitl; rw [e1]; rfl, adj ss h k e2, e3, e4⟩

theorem dropl_spec (p : Char → Bool) {ss : Sub} (h : Valid ss) : ∃ a b, dropl p ss = some b ∧ Adjacent a b ss ∧
    (∀ c ∈ text a, p c = true) ∧ (∀ c ∈ (text b).head?, p c = false) := by
  obtain ⟨k, e1, e2, e3, e4⟩ := scanl_spec p h
  exact ⟨_, _, by unfold dropl; rw [e1]; rfl, adj ss h k e2, e3, e4⟩

/-- the results lie one after the other in `ss`, starting at or after `i` -/
def Ordered (ss : Sub) : Nat → List Sub → Prop
  | i, [] => i ≤ ss.i + ss.n
  | i, x :: xs => x.s = ss.s ∧ i ≤ x.i ∧ Ordered ss (x.i + x.n) xs

theorem fieldsLoop_spec (d : Char → Bool) (fuel : Nat) : ∀ (ss : Sub) (res : List Sub), Valid ss → ss.n < fuel →
    ∃ r, fieldsLoop d fuel ss res = some (res.reverse ++ r) ∧ IsFields d (text ss) (r.map text) ∧ Ordered ss ss.i r := by
  induction fuel with
  | zero => intro ss res _ h; omega
  | succ fuel ih =>
    intro ss res hv hf
    obtain ⟨a, b, e, had, h1, h2⟩ := splitl_spec (fun c => !d c) hv
    have hap := text_append had
    obtain ⟨va, vb, q1, q2, q3, q4, q5⟩ := had
    have h1' : ∀ c ∈ text a, d c = false := fun c hc => by simpa using h1 c hc
    unfold fieldsLoop
    rw [e]
    simp only [Option.bind_eq_bind, Option.bind_some]
    by_cases c : b.n = 0
    · rw [if_pos c]
      have hb : text b = [] := by simp [text, c]
      rw [hb, List.append_nil] at hap
      refine ⟨[a], by simp, ?_, ?_⟩
      · rw [← hap]; exact .last h1'
      · simp only [Ordered]; exact ⟨q1, by omega, by omega⟩
    · rw [if_neg c]
      obtain ⟨hm, eb⟩ := text_cons vb (by omega)
      have hr : rest b = ⟨b.s, b.i + 1, b.n - 1⟩ := by unfold rest; rw [if_neg c]
      rw [hr]
      unfold Valid at vb
      obtain ⟨r, e2, e3, e4⟩ := ih ⟨b.s, b.i + 1, b.n - 1⟩ (a :: res) (by unfold Valid; dsimp only; omega) (by dsimp only; omega)
      refine ⟨a :: r, by rw [e2]; simp, ?_, ?_⟩
      · rw [← hap, eb]
        refine .cons h1' ?_ e3
        have := h2 b.s[b.i] (by rw [eb]; rfl)
        simpa using this
      · refine ⟨q1, by omega, ?_⟩
        clear e2 e3
        cases r with
        | nil => simp only [Ordered] at e4 ⊢; omega
        | cons x xs =>
          simp only [Ordered] at e4 ⊢
          refine ⟨by rw [e4.1, q2], by omega, ?_⟩
          have key : ∀ (l : List Sub) (i : Nat), Ordered ⟨b.s, b.i + 1, b.n - 1⟩ i l → Ordered ss i l := by
            intro l
            induction l with
            | nil => intro i h; simp only [Ordered] at h ⊢; omega
            | cons y ys ih => intro i h; simp only [Ordered] at h ⊢; exact ⟨by rw [h.1, q2], h.2.1, ih _ h.2.2⟩
          exact key xs _ e4.2.2

theorem ordered_mono {ss ss' : Sub} (hs : ss'.s = ss.s) (he : ss'.i + ss'.n ≤ ss.i + ss.n) (l : List Sub) :
    ∀ i j, j ≤ i → (Ordered ss' i l → Ordered ss j l) := by
  induction l with
  | nil => intro i j hij h; simp only [Ordered] at h ⊢; omega
  | cons x xs ih =>
    intro i j hij h
    simp only [Ordered] at h ⊢
    exact ⟨by rw [h.1, hs], by omega, ih _ _ (le_refl _) h.2.2⟩

theorem isTokens_prefix {d : Char → Bool} {ds w : List Char} {ts : List (List Char)} (hd : ∀ c ∈ ds, d c = true) (h : IsTokens d w ts) : IsTokens d (ds ++ w) ts := by
  have app : ∀ {ds' : List Char}, (∀ c ∈ ds', d c = true) → ∀ c ∈ ds ++ ds', d c = true := by
    intro ds' h' c hc
    rcases List.mem_append.1 hc with h1 | h1
    · exact hd c h1
    · exact h' c h1
  cases h with
  | none h1 => exact .none (app h1)
  | last h1 h2 h3 h4 =>
    rw [← List.append_assoc, ← List.append_assoc]
    exact .last (app h1) h2 h3 h4
  | cons h1 h2 h3 h4 h5 =>
    rw [← List.append_assoc, ← List.append_assoc]
    exact .cons (app h1) h2 h3 h4 h5

/-- the loop, at the start of a token -/
theorem tokensLoop_spec (d : Char → Bool) (fuel : Nat) : ∀ (ss : Sub) (res : List Sub), Valid ss → ss.n < fuel → (∀ c ∈ (text ss).head?, d c = false) →
    ∃ r, tokensLoop d fuel ss res = some (res.reverse ++ r) ∧ IsTokens d (text ss) (r.map text) ∧ Ordered ss ss.i r := by
  induction fuel with
  | zero => intro ss res _ h; omega
  | succ fuel ih =>
    intro ss res hv hf hh
    unfold tokensLoop
    by_cases c : ss.n = 0
    · rw [if_pos c]
      refine ⟨[], by simp, ?_, by simp [Ordered]⟩
      have : text ss = [] := by simp [text, c]
      rw [this]; exact .none (by simp)
    · rw [if_neg c]
      obtain ⟨a, b, e, had, h1, h2⟩ := splitl_spec (fun c => !d c) hv
      have hap := text_append had
      obtain ⟨va, vb, q1, q2, q3, q4, q5⟩ := had
      have h1' : ∀ c ∈ text a, d c = false := fun c hc => by simpa using h1 c hc
      have ha : text a ≠ [] := by
        intro hz
        obtain ⟨hm, es⟩ := text_cons hv (by omega)
        rw [hz, List.nil_append] at hap
        have g1 := hh ss.s[ss.i] (by rw [es]; rfl)
        have g2 := h2 ss.s[ss.i] (by rw [hap, es]; rfl)
        rw [g1] at g2; cases g2
      have han : 0 < a.n := by
        rw [← text_length va]; exact List.length_pos_iff.2 ha
      obtain ⟨x, y, e2, had2, h3, h4⟩ := dropl_spec d vb
      have hap2 := text_append had2
      obtain ⟨vx, vy, p1, p2, p3, p4, p5⟩ := had2
      rw [e]
      simp only [Option.bind_eq_bind, Option.bind_some]
      rw [e2]
      simp only [Option.bind_some]
      obtain ⟨r, e3, e4, e5⟩ := ih y (a :: res) vy (by omega) h4
      refine ⟨a :: r, by rw [e3]; simp, ?_, ?_⟩
      · rw [← hap, ← hap2, List.map_cons]
        cases hx : text x with
        | nil =>
          -- then the rest is empty
          rw [hx, List.nil_append] at hap2
          have hy : text y = [] := by
            cases hy : text y with
            | nil => rfl
            | cons c w =>
              have g1 := h4 c (by rw [hy]; rfl)
              have g2 := h2 c (by rw [← hap2, hy]; rfl)
              simp [g1] at g2
          have hr : r.map text = [] := by
            rw [hy] at e4
            generalize hw : ([] : List Char) = w at e4
            generalize r.map text = rt at e4
            cases e4 with
            | none _ => rfl
            | last h1 h2 h3 h4 => exfalso; have := congrArg List.length hw; simp at this; have := List.length_pos_iff.2 h2; omega
            | cons h1 h2 h3 h4 h5 => exfalso; have := congrArg List.length hw; simp at this
          rw [hy, hr]
          have := IsTokens.last (d := d) (ds := []) (ds' := []) (by simp) ha h1' (by simp)
          simpa using this
        | cons c w =>
          have hc : d c = true := h3 c (by rw [hx]; simp)
          have := IsTokens.cons (d := d) (ds := []) (by simp) ha h1' hc (isTokens_prefix (ds := w) (fun c' h' => h3 c' (by rw [hx]; simp [h'])) e4)
          simpa using this
      · refine ⟨q1, by omega, ?_⟩
        exact ordered_mono (by rw [p2, q2]) (by omega) r _ _ (by omega) e5

/-! ### properties -/

/-- C47: `splitl p ss` is defined for every substring and predicate; it gives adjacent substrings making up `ss`, the first the longest
prefix of characters satisfying `p`. -/
theorem C47_splitl (p : Char → Bool) (ss : Sub) (h : Valid ss) : ∃ a b, splitl p ss = some (a, b) ∧ Adjacent a b ss ∧ text a ++ text b = text ss ∧
    (∀ c ∈ text a, p c = true) ∧ (∀ c ∈ (text b).head?, p c = false) := by
  obtain ⟨a, b, h1, h2, h3⟩ := splitl_spec p h
  exact ⟨a, b, h1, h2, text_append h2, h3⟩

/-- C47: `splitr p ss` gives adjacent substrings making up `ss`, the second the longest suffix of characters satisfying `p`. -/
theorem C47_splitr (p : Char → Bool) (ss : Sub) (h : Valid ss) : ∃ a b, splitr p ss = some (a, b) ∧ Adjacent a b ss ∧ text a ++ text b = text ss ∧
    (∀ c ∈ text b, p c = true) ∧ (∀ c ∈ (text a).getLast?, p c = false) := by
  obtain ⟨k, e1, e2, e3, e4⟩ := scanr_spec p h
  have h2 := adj ss h k e2
  exact ⟨_, _, by unfold splitr; rw [e1]; rfl, h2, text_append h2, e3, e4⟩

/-- C47: `takel`, `dropl`, `taker` and `dropr` give the parts of `splitl` and `splitr`. -/
theorem C47_take_drop (p : Char → Bool) (ss : Sub) :
    takel p ss = (splitl p ss).map Prod.fst ∧ dropl p ss = (splitl p ss).map Prod.snd ∧
    dropr p ss = (splitr p ss).map Prod.fst ∧ taker p ss = (splitr p ss).map Prod.snd := by
  unfold takel dropl dropr taker splitl splitr
  cases scanl p ss <;> cases scanr p ss <;> exact ⟨rfl, rfl, rfl, rfl⟩

/-- C47: `fields` ends, and gives, in order, the fields of the substring: separated by single delimiters and without delimiters. -/
theorem C47_fields (d : Char → Bool) (ss : Sub) (h : Valid ss) : ∃ r, fields d ss = some r ∧ IsFields d (text ss) (r.map text) ∧ Ordered ss ss.i r := by
  obtain ⟨r, e, h1, h2⟩ := fieldsLoop_spec d (ss.n + 1) ss [] h (by omega)
  exact ⟨r, by unfold fields; rw [e]; rfl, h1, h2⟩

/-- C47: `tokens` ends, and gives, in order, the tokens of the substring: nonempty, without delimiters, and separated by delimiters. -/
theorem C47_tokens (d : Char → Bool) (ss : Sub) (h : Valid ss) : ∃ r, tokens d ss = some r ∧ IsTokens d (text ss) (r.map text) ∧ Ordered ss ss.i r := by
  obtain ⟨a, b, e, had, h1, h2⟩ := dropl_spec d h
  have hap := text_append had
  obtain ⟨va, vb, q1, q2, q3, q4, q5⟩ := had
  obtain ⟨r, e2, h3, h4⟩ := tokensLoop_spec d (ss.n + 1) b [] vb (by omega) h2
  refine ⟨r, ?_, ?_, ordered_mono q2 (by omega) r _ _ (by omega) h4⟩
  · unfold tokens
    rw [e]
    simp only [Option.bind_eq_bind, Option.bind_some, e2]
    rfl
  · rw [← hap]; exact isTokens_prefix h1 h3

/-- fields and tokens as lists of characters are determined by the text: the relations above are functions of it -/
def splitFields (d : Char → Bool) : List Char → List (List Char)
  | [] => [[]]
  | c :: w => if d c then [] :: splitFields d w else match splitFields d w with
    | [] => [[c]]
    | f :: fs => (c :: f) :: fs

theorem splitFields_ne (d : Char → Bool) (w : List Char) : splitFields d w ≠ [] := by
  cases w with
  | nil => simp [splitFields]
  | cons c w => unfold splitFields; split; · simp
                split <;> simp

theorem splitFields_append (d : Char → Bool) (f w : List Char) (h : ∀ c ∈ f, d c = false) :
    splitFields d (f ++ w) = match splitFields d w with | [] => [f] | g :: gs => (f ++ g) :: gs := by
  induction f with
  | nil =>
    have := splitFields_ne d w
    cases e : splitFields d w with
    | nil => exact absurd e this
    | cons g gs => simp [e]
  | cons c f ih =>
    have hc : d c = false := h c (by simp)
    simp only [List.cons_append, splitFields, hc, Bool.false_eq_true, if_false]
    rw [ih (fun c' h' => h c' (by simp [h']))]
    cases splitFields d w <;> rfl

theorem isFields_eq {d : Char → Bool} {w : List Char} {fs : List (List Char)} (h : IsFields d w fs) : fs = splitFields d w := by
  induction h with
  | last h1 => have := splitFields_append d _ [] h1; simpa [splitFields] using this.symm
  | cons h1 h2 h3 ih =>
    rw [splitFields_append d _ _ h1]
    simp [splitFields, h2, ih]

/-- `tokens` are the nonempty `fields` -/
theorem isTokens_eq {d : Char → Bool} {w : List Char} {ts : List (List Char)} (h : IsTokens d w ts) : ts = (splitFields d w).filter (fun t => !t.isEmpty) := by
  have delims : ∀ ds w : List Char, (∀ c ∈ ds, d c = true) → (splitFields d (ds ++ w)).filter (fun t => !t.isEmpty) = (splitFields d w).filter (fun t => !t.isEmpty) := by
    intro ds w h
    induction ds with
    | nil => rfl
    | cons c ds ih =>
      simp only [List.cons_append, splitFields, h c (by simp), if_true]
      rw [List.filter_cons]
      simp [ih (fun c' h' => h c' (by simp [h']))]
  induction h with
  | @none ds h1 => have := delims _ [] h1; rw [List.append_nil] at this; rw [this]; rfl
  | @last ds t ds' h1 h2 h3 h4 =>
    rw [List.append_assoc, delims _ _ h1, splitFields_append d _ _ h3]
    cases ds' with
    | nil => cases t with
      | nil => exact absurd rfl h2
      | cons a b => simp [splitFields]
    | cons c ds' =>
      simp only [splitFields, h4 c (by simp), if_true, List.append_nil]
      have := delims ds' [] (fun c' h' => h4 c' (by simp [h']))
      rw [List.append_nil] at this
      rw [List.filter_cons, this]
      cases t with
      | nil => exact absurd rfl h2
      | cons a b => simp [splitFields]
  | @cons ds t x w ts h1 h2 h3 h4 h5 ih =>
    rw [List.append_assoc, delims _ _ h1, splitFields_append d _ _ h3]
    simp only [splitFields, h4, if_true, List.append_nil]
    cases t with
    | nil => exact absurd rfl h2
    | cons a b => simp [ih]

/-- C47: the texts of `fields`, as a function of the text of the substring; joined with the delimiter `x`, they give the text back -/
theorem C47_fields_join (x : Char) (ss : Sub) (h : Valid ss) : ∃ r, fields (fun c => c == x) ss = some r ∧
    List.intercalate [x] (r.map text) = text ss := by
  obtain ⟨r, e, h1, _⟩ := C47_fields (fun c => c == x) ss h
  refine ⟨r, e, ?_⟩
  generalize r.map text = fs at h1
  generalize text ss = w at h1
  induction h1 with
  | last => simp [List.intercalate]
  | cons h1 h2 h3 ih =>
    have hx := h2
    simp only [beq_iff_eq] at hx
    subst hx
    cases h3 with
    | last => simp [List.intercalate]
    | cons h4 h5 h6 => simp [List.intercalate] at ih ⊢; rw [ih]

example : Valid ⟨"xx/a//bc/".toList, 2, 7⟩ ∧ text ⟨"xx/a//bc/".toList, 2, 7⟩ = "/a//bc/".toList ∧
    IsFields (· == '/') "/a//bc/".toList ["".toList, "a".toList, "".toList, "bc".toList, "".toList] := by
  refine ⟨by unfold Valid; decide, by decide, ?_⟩
  exact .cons (f := []) (by simp) (by decide) (.cons (f := ['a']) (by decide) (by decide) (.cons (f := []) (by simp) (by decide)
    (.cons (f := ['b', 'c']) (by decide) (by decide) (.last (by simp)))))

end Mosml.Lib.Substring
