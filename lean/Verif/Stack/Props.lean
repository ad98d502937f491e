import Verif.Stack.Model

/-! C29: growing the stack is transparent. -/
namespace Mosml.Stack

/-- the trap frames from `p` on -/
inductive Chain (m : Int → Word) (high : Int) : Int → List Int → Prop
  | nil : Chain m high high []
  | cons {p a ps} : m (p + 1) = .link a → p + 4 ≤ a → a ≤ high → Chain m high a ps → Chain m high p (p :: ps)

/-- the stack is in order: the links are those of the chain from `trapsp` to the base -/
structure Ok (s : St) : Prop where
  low : s.low ≤ s.sp
  trap : s.sp ≤ s.trapsp
  high : s.trapsp ≤ s.high
  chain : ∃ ps, Chain s.mem s.high s.trapsp ps ∧ ∀ x, s.sp ≤ x → x < s.high → (∃ a, s.mem x = .link a) → ∃ p ∈ ps, x = p + 1

def shiftWord (d : Int) : Word → Word
  | .val v => .val v
  | .link a => .link (a + d)

/-- The two stacks hold the same at the same distance from their bases, and links are to the frame at the same distance. -/
structure Same (s t : St) : Prop where
  sp : t.high - t.sp = s.high - s.sp
  trapsp : t.high - t.trapsp = s.high - s.trapsp
  room : s.sp - s.low ≤ t.sp - t.low
  slots : ∀ x, s.sp ≤ x → x < s.high → t.mem (x + (t.high - s.high)) = shiftWord (t.high - s.high) (s.mem x)

theorem upd_same (m : Int → Word) (a : Int) (w : Word) : upd m a w a = w := by simp [upd]
theorem upd_ne (m : Int → Word) {a x : Int} (w : Word) (h : x ≠ a) : upd m a w x = m x := by simp [upd, h]

theorem Chain.le {m : Int → Word} {high p : Int} {ps : List Int} (h : Chain m high p ps) : ∀ q ∈ ps, p ≤ q ∧ q + 4 ≤ high := by
  induction h with
  | nil => simp
  | @cons p a ps h1 h2 h3 h4 ih =>
    intro q hq
    rcases List.mem_cons.mp hq with rfl | hq
    · omega
    · have := ih q hq; omega

theorem Chain.inv {m : Int → Word} {high p : Int} {ps : List Int} (h : Chain m high p ps) (hp : p < high) :
    ∃ a ps', ps = p :: ps' ∧ m (p + 1) = .link a ∧ p + 4 ≤ a ∧ a ≤ high ∧ Chain m high a ps' := by
  cases h with
  | nil => omega
  | cons h1 h2 h3 h4 => exact ⟨_, _, rfl, h1, h2, h3, h4⟩

theorem Chain.isLink {m : Int → Word} {high p : Int} {ps : List Int} (h : Chain m high p ps) : ∀ q ∈ ps, ∃ a, m (q + 1) = .link a := by
  induction h with
  | nil => simp
  | @cons p a ps h1 _ _ _ ih =>
    intro q hq
    rcases List.mem_cons.mp hq with rfl | hq
    · exact ⟨a, h1⟩
    · exact ih q hq

theorem Chain.len {m : Int → Word} {high p : Int} {ps : List Int} (h : Chain m high p ps) : p + 4 * ps.length ≤ high := by
  induction h with
  | nil => simp
  | @cons p a ps h1 h2 h3 h4 ih => rw [List.length_cons]; push_cast; omega

theorem Chain.congr {m m' : Int → Word} {high p : Int} {ps : List Int} (h : Chain m high p ps) (he : ∀ q ∈ ps, m' (q + 1) = m (q + 1)) :
    Chain m' high p ps := by
  induction h with
  | nil => exact .nil
  | @cons p a ps h1 h2 h3 h4 ih =>
    exact .cons (by rw [he p List.mem_cons_self]; exact h1) h2 h3 (ih (fun q hq => he q (List.mem_cons_of_mem _ hq)))

theorem Chain.shift {m m' : Int → Word} {high p d : Int} {ps : List Int} (h : Chain m high p ps)
    (he : ∀ q ∈ ps, m' (q + 1 + d) = shiftWord d (m (q + 1))) : Chain m' (high + d) (p + d) (ps.map (· + d)) := by
  induction h with
  | nil => exact .nil
  | @cons p a ps h1 h2 h3 h4 ih =>
    refine .cons (a := a + d) ?_ (by omega) (by omega) (ih (fun q hq => he q (List.mem_cons_of_mem _ hq)))
    have := he p List.mem_cons_self
    rw [h1] at this
    rw [show p + d + 1 = p + 1 + d by omega]
    exact this

theorem relink_ok {mem : Int → Word} {high d p : Int} {ps : List Int} (h : Chain mem high p ps) :
    ∀ (n : Nat) (m : Int → Word), ps.length ≤ n → (∀ q ∈ ps, m (q + 1 + d) = mem (q + 1)) →
    ∃ m', relink (fun a => high + d - (high - a)) (high + d) n m (p + d) = some m' ∧
      (∀ q ∈ ps, m' (q + 1 + d) = shiftWord d (mem (q + 1))) ∧ (∀ x, (∀ q ∈ ps, x ≠ q + 1 + d) → m' x = m x) := by
  induction h with
  | nil =>
    intro n m _ _
    refine ⟨m, ?_, by simp, by simp⟩
    cases n <;> simp [relink]
  | @cons p a ps h1 h2 h3 h4 ih =>
    intro n m hn hm
    cases n with
    | zero => simp at hn
    | succ n =>
      have hp1 : m (p + d + 1) = .link a := by
        rw [show p + d + 1 = p + 1 + d by omega, hm p List.mem_cons_self, h1]
      have hlt : p + d < high + d := by omega
      rw [relink, if_pos hlt, hp1]
      dsimp only
      have hps := h4.le
      have hne : ∀ q ∈ ps, q + 1 + d ≠ p + d + 1 := by
        intro q hq
        have := hps q hq
        omega
      have hsh : high + d - (high - a) = a + d := by omega
      rw [hsh]
      obtain ⟨m', k1, k2, k3⟩ := ih n (upd m (p + d + 1) (.link (a + d))) (by simpa using hn) (by
        intro q hq
        rw [upd_ne _ _ (hne q hq)]
        exact hm q (List.mem_cons_of_mem _ hq))
      refine ⟨m', k1, ?_, ?_⟩
      · intro q hq
        rcases List.mem_cons.mp hq with rfl | hq
        · rw [k3 _ (fun r hr e => hne r hr (by omega)), show q + 1 + d = q + d + 1 by omega, upd_same, h1]
          rfl
        · exact k2 q hq
      · intro x hx
        rw [k3 x (fun q hq => hx q (List.mem_cons_of_mem _ hq)), upd_ne]
        have := hx p List.mem_cons_self
        omega

/-- C29: reallocation succeeds until the limit, and gives a stack that is the same as seen from its base, and twice as big. -/
theorem C29_realloc {s : St} (h : Ok s) (hs : s.high - s.low < maxSize) (newLow : Int) (junk : Int → Word) :
    ∃ t, realloc s newLow junk = some t ∧ Ok t ∧ Same s t ∧ t.low = newLow ∧ t.high - t.low = 2 * (s.high - s.low) := by
  obtain ⟨l1, l2, l3, ps, hc, hl⟩ := h
  unfold realloc
  dsimp only
  rw [if_neg (by omega)]
  obtain ⟨d, hd⟩ : ∃ d, d = newLow + (s.high - s.low) * 2 - s.high := ⟨_, rfl⟩
  have e1 : newLow + (s.high - s.low) * 2 = s.high + d := by omega
  rw [e1]
  generalize hm : (fun x => if s.high + d - (s.high - s.sp) ≤ x ∧ x < s.high + d - (s.high - s.sp) + (s.high - s.sp) then
    s.mem (s.sp + (x - (s.high + d - (s.high - s.sp)))) else junk x) = m
  have hmx : ∀ x, s.sp ≤ x → x < s.high → m (x + d) = s.mem x := by
    intro x k1 k2
    rw [← hm]
    dsimp only
    rw [if_pos ⟨by omega, by omega⟩]
    congr 1; omega
  have hps := hc.le
  have hlen := hc.len
  obtain ⟨m', k1, k2, k3⟩ := relink_ok (d := d) hc (s.high - s.low).toNat m (by omega) (by
    intro q hq
    have := hps q hq
    exact hmx _ (by omega) (by omega))
  have e2 : s.high + d - (s.high - s.trapsp) = s.trapsp + d := by omega
  rw [e2, k1]
  have slots : ∀ x, s.sp ≤ x → x < s.high → m' (x + d) = shiftWord d (s.mem x) := by
    intro x j1 j2
    by_cases hq : ∃ q ∈ ps, x = q + 1
    · obtain ⟨q, q1, rfl⟩ := hq
      exact k2 q q1
    · rw [k3 (x + d) (fun q q1 e => hq ⟨q, q1, by omega⟩), hmx x j1 j2]
      cases hw : s.mem x with
      | val v => rfl
      | link a => exact absurd (hl x j1 j2 ⟨a, hw⟩) hq
  refine ⟨_, rfl, ⟨?_, ?_, ?_, ps.map (· + d), ?_, ?_⟩, ⟨?_, ?_, ?_, ?_⟩, rfl, ?_⟩
  · show newLow ≤ s.high + d - (s.high - s.sp); omega
  · show s.high + d - (s.high - s.sp) ≤ s.trapsp + d; omega
  · show s.trapsp + d ≤ s.high + d; omega
  · exact hc.shift k2
  · rintro x j1 j2 ⟨a, ha⟩
    have j1 : s.high + d - (s.high - s.sp) ≤ x := j1
    have j2 : x < s.high + d := j2
    have ha : m' x = .link a := ha
    have := slots (x - d) (by omega) (by omega)
    rw [show x - d + d = x by omega, ha] at this
    have hlink : ∃ b, s.mem (x - d) = .link b := by
      cases hw : s.mem (x - d) with
      | val v => rw [hw] at this; exact absurd this (by simp [shiftWord])
      | link b => exact ⟨b, rfl⟩
    obtain ⟨p, p1, p2⟩ := hl (x - d) (by omega) (by omega) hlink
    exact ⟨p + d, List.mem_map.mpr ⟨p, p1, rfl⟩, by omega⟩
  · show s.high + d - (s.high + d - (s.high - s.sp)) = s.high - s.sp; omega
  · show s.high + d - (s.trapsp + d) = s.high - s.trapsp; omega
  · show s.sp - s.low ≤ s.high + d - (s.high - s.sp) - newLow; omega
  · intro x j1 j2
    have e3 : s.high + d - s.high = d := by omega
    show m' (x + (s.high + d - s.high)) = shiftWord (s.high + d - s.high) (s.mem x)
    rw [e3]
    exact slots x j1 j2
  · show s.high + d - newLow = 2 * (s.high - s.low); omega

/-- after reallocation there is room again, as there is at the start -/
theorem C29_room {s t : St} (h : Ok s) (newLow : Int) (junk : Int → Word) (hs : stackSize ≤ s.high - s.low) (hr : realloc s newLow junk = some t) :
    t.low + threshold ≤ t.sp ∧ stackSize ≤ t.high - t.low := by
  by_cases hm : s.high - s.low < maxSize
  · obtain ⟨t', k1, k2, k3, k4, k5⟩ := C29_realloc h hm newLow junk
    rw [hr] at k1
    obtain rfl := Option.some.inj k1
    have h1 := k3.sp
    have h2 := h.low
    have : stackSize = 4096 := rfl
    have : threshold = 256 := rfl
    constructor <;> omega
  · unfold realloc at hr
    dsimp only at hr
    rw [if_pos (by omega)] at hr
    exact absurd hr (by simp)

theorem init_ok (mem : Int → Word) (low : Int) : Ok (init mem low) := by
  refine ⟨?_, Int.le_refl _, Int.le_refl _, [], .nil, ?_⟩
  · show low ≤ low + stackSize
    have : stackSize = 4096 := rfl
    omega
  · intro x h1 h2
    have h1 : low + stackSize ≤ x := h1
    have h2 : x < low + stackSize := h2
    omega

theorem upd4 (m : Int → Word) (a : Int) (w0 w1 w2 w3 : Word) (x : Int) (h : x < a ∨ a + 4 ≤ x) :
    upd (upd (upd (upd m a w0) (a + 1) w1) (a + 2) w2) (a + 3) w3 x = m x := by
  rw [upd_ne _ _ (by omega), upd_ne _ _ (by omega), upd_ne _ _ (by omega), upd_ne _ _ (by omega)]

theorem exec_ok {s s' : St} {op : Op} {o : Obs} (h : Ok s) (he : exec s op = some (o, s')) : Ok s' := by
  obtain ⟨l1, l2, l3, ps, hc, hl⟩ := h
  have hps := hc.le
  cases op with
  | push v =>
    simp only [exec] at he
    split at he
    · obtain ⟨rfl, rfl⟩ := Prod.mk.inj (Option.some.inj he)
      refine ⟨by show s.low ≤ s.sp - 1; omega, by show s.sp - 1 ≤ s.trapsp; omega, l3, ps, ?_, ?_⟩
      · refine hc.congr (fun q hq => upd_ne _ _ ?_)
        have := hps q hq; omega
      · rintro x k1 k2 ⟨a, ha⟩
        have k1 : s.sp - 1 ≤ x := k1
        have ha : upd s.mem (s.sp - 1) (.val v) x = .link a := ha
        by_cases e : x = s.sp - 1
        · rw [e, upd_same] at ha; exact absurd ha (by simp)
        · rw [upd_ne _ _ e] at ha; exact hl x (by omega) k2 ⟨a, ha⟩
    · exact absurd he (by simp)
  | pop n =>
    simp only [exec] at he
    split at he
    · obtain ⟨rfl, rfl⟩ := Prod.mk.inj (Option.some.inj he)
      refine ⟨by show s.low ≤ s.sp + n; omega, by assumption, l3, ps, hc, ?_⟩
      intro x k1 k2 k3
      have k1 : s.sp + n ≤ x := k1
      exact hl x (by omega) k2 k3
    · exact absurd he (by simp)
  | acc n =>
    simp only [exec] at he
    obtain ⟨v, _, e⟩ := Option.map_eq_some_iff.mp he
    obtain ⟨rfl, rfl⟩ := Prod.mk.inj e
    exact ⟨l1, l2, l3, ps, hc, hl⟩
  | assign n v =>
    simp only [exec] at he
    obtain ⟨w, hw, e⟩ := Option.map_eq_some_iff.mp he
    obtain ⟨rfl, rfl⟩ := Prod.mk.inj e
    have hval : s.mem (s.sp + n) = .val w := by
      unfold read at hw
      split at hw
      · cases hx : s.mem (s.sp + n) with
        | val z => rw [hx] at hw; rw [Option.some.inj hw]
        | link a => rw [hx] at hw; exact absurd hw (by simp)
      · exact absurd hw (by simp)
    refine ⟨l1, l2, l3, ps, ?_, ?_⟩
    · have := hc.isLink
      refine hc.congr (fun q hq => upd_ne _ _ ?_)
      intro e
      obtain ⟨a, ha⟩ := this q hq
      rw [e, hval] at ha
      exact absurd ha (by simp)
    · rintro x k1 k2 ⟨a, ha⟩
      have ha : upd s.mem (s.sp + n) (.val v) x = .link a := ha
      by_cases e : x = s.sp + n
      · rw [e, upd_same] at ha; exact absurd ha (by simp)
      · rw [upd_ne _ _ e] at ha; exact hl x k1 k2 ⟨a, ha⟩
  | pushTrap pc env extra =>
    simp only [exec] at he
    split at he
    · rename_i hroom
      obtain ⟨rfl, rfl⟩ := Prod.mk.inj (Option.some.inj he)
      refine ⟨hroom, Int.le_refl _, by show s.sp - 4 ≤ s.high; omega, (s.sp - 4) :: ps, ?_, ?_⟩
      · refine .cons (a := s.trapsp) ?_ (by show s.sp - 4 + 4 ≤ s.trapsp; omega) l3 (hc.congr ?_)
        · show upd _ (s.sp - 4 + 3) _ (s.sp - 4 + 1) = _
          rw [upd_ne _ _ (by omega), upd_ne _ _ (by omega), upd_same]
        · intro q hq
          have := hps q hq
          exact upd4 _ _ _ _ _ _ _ (Or.inr (by omega))
      · rintro x k1 k2 ⟨a, ha⟩
        have k1 : s.sp - 4 ≤ x := k1
        have ha : upd (upd (upd (upd s.mem (s.sp - 4) (.val pc)) (s.sp - 4 + 1) (.link s.trapsp)) (s.sp - 4 + 2) (.val env)) (s.sp - 4 + 3) (.val extra) x = .link a := ha
        by_cases e1 : x = s.sp - 4 + 1
        · exact ⟨_, List.mem_cons_self, e1⟩
        · by_cases e0 : x = s.sp - 4
          · rw [upd_ne _ _ (by omega), upd_ne _ _ (by omega), upd_ne _ _ (by omega), e0, upd_same] at ha; exact absurd ha (by simp)
          · by_cases e2 : x = s.sp - 4 + 2
            · rw [upd_ne _ _ (by omega), e2, upd_same] at ha; exact absurd ha (by simp)
            · by_cases e3 : x = s.sp - 4 + 3
              · rw [e3, upd_same] at ha; exact absurd ha (by simp)
              · rw [upd4 _ _ _ _ _ _ _ (Or.inr (by omega))] at ha
                obtain ⟨p, p1, p2⟩ := hl x (by omega) k2 ⟨a, ha⟩
                exact ⟨p, List.mem_cons_of_mem _ p1, p2⟩
    · exact absurd he (by simp)
  | popTrap =>
    simp only [exec] at he
    split at he
    · rename_i hsp
      obtain ⟨a, ps, rfl, h1, h2, h3, h4⟩ := hc.inv (by omega)
      · rw [hsp.1, h1] at he
        obtain ⟨rfl, rfl⟩ := Prod.mk.inj (Option.some.inj he)
        refine ⟨by show s.low ≤ s.trapsp + 4; omega, by show s.trapsp + 4 ≤ a; omega, h3, ps, h4, ?_⟩
        intro x k1 k2 k3
        have k1 : s.trapsp + 4 ≤ x := k1
        obtain ⟨p, p1, p2⟩ := hl x (by omega) k2 k3
        rcases List.mem_cons.mp p1 with rfl | p1
        · omega
        · exact ⟨p, p1, p2⟩
    · exact absurd he (by simp)
  | raise offset =>
    simp only [exec] at he
    split at he
    · obtain ⟨rfl, rfl⟩ := Prod.mk.inj (Option.some.inj he)
      refine ⟨by show s.low ≤ s.trapsp; omega, Int.le_refl _, l3, ps, hc, ?_⟩
      intro x k1 k2 k3
      have k1 : s.trapsp ≤ x := k1
      exact hl x (by omega) k2 k3
    · split at he
      · rename_i pc a env extra w0 w1 w2 w3
        obtain ⟨rfl, rfl⟩ := Prod.mk.inj (Option.some.inj he)
        obtain ⟨b, ps, rfl, h1, h2, h3, h4⟩ := hc.inv (by omega)
        · rw [w1] at h1
          obtain rfl := Word.link.inj h1
          refine ⟨by show s.low ≤ s.trapsp + 4; omega, by show s.trapsp + 4 ≤ a; omega, h3, ps, h4, ?_⟩
          intro x k1 k2 k3
          have k1 : s.trapsp + 4 ≤ x := k1
          obtain ⟨p, p1, p2⟩ := hl x (by omega) k2 k3
          rcases List.mem_cons.mp p1 with rfl | p1
          · omega
          · exact ⟨p, p1, p2⟩
      · exact absurd he (by simp)

theorem shiftWord_val {d : Int} {w : Word} {v : Int} (h : w = .val v) : shiftWord d w = .val v := by rw [h]; rfl

theorem same_read {s t : St} (h : Same s t) {n : Nat} {v : Int} (hr : read s (s.sp + n) = some v) : read t (t.sp + n) = some v := by
  obtain ⟨h1, h2, h3, h4⟩ := h
  unfold read at hr ⊢
  split at hr
  · rename_i hc
    rw [if_pos ⟨by omega, by omega⟩]
    have := h4 (s.sp + n) hc.1 hc.2
    rw [show s.sp + n + (t.high - s.high) = t.sp + n by omega] at this
    cases hx : s.mem (s.sp + n) with
    | val z => rw [hx] at hr this; rw [this]; exact hr
    | link a => rw [hx] at hr; exact absurd hr (by simp)
  · exact absurd hr (by simp)

/-- C29: what an instruction does on a stack it does on any stack that is the same as seen from its base. -/
theorem C29_exec {s t s' : St} {op : Op} {o : Obs} (hs : Ok s) (h : Same s t) (he : exec s op = some (o, s')) :
    ∃ t', exec t op = some (o, t') ∧ Same s' t' ∧ t'.high = t.high ∧ t'.low = t.low ∧ s'.high = s.high ∧ s'.low = s.low := by
  obtain ⟨l1, l2, l3, ps, hc, hl⟩ := hs
  have hsame := h
  obtain ⟨h1, h2, h3, h4⟩ := h
  cases op with
  | push v =>
    simp only [exec] at he ⊢
    split at he
    · obtain ⟨rfl, rfl⟩ := Prod.mk.inj (Option.some.inj he)
      rw [if_pos (by omega)]
      refine ⟨_, rfl, ⟨?_, h2, ?_, ?_⟩, rfl, rfl, rfl, rfl⟩
      · show t.high - (t.sp - 1) = s.high - (s.sp - 1); omega
      · show s.sp - 1 - s.low ≤ t.sp - 1 - t.low; omega
      · intro x k1 k2
        have k1 : s.sp - 1 ≤ x := k1
        show upd t.mem (t.sp - 1) _ (x + (t.high - s.high)) = shiftWord _ (upd s.mem (s.sp - 1) _ x)
        by_cases e : x = s.sp - 1
        · rw [show x + (t.high - s.high) = t.sp - 1 by omega, upd_same, e, upd_same]; rfl
        · rw [upd_ne _ _ (by omega), upd_ne _ _ e]; exact h4 x (by omega) k2
    · exact absurd he (by simp)
  | pop n =>
    simp only [exec] at he ⊢
    split at he
    · obtain ⟨rfl, rfl⟩ := Prod.mk.inj (Option.some.inj he)
      rw [if_pos (by omega)]
      refine ⟨_, rfl, ⟨?_, h2, ?_, ?_⟩, rfl, rfl, rfl, rfl⟩
      · show t.high - (t.sp + n) = s.high - (s.sp + n); omega
      · show s.sp + n - s.low ≤ t.sp + n - t.low; omega
      · intro x k1 k2
        have k1 : s.sp + n ≤ x := k1
        exact h4 x (by omega) k2
    · exact absurd he (by simp)
  | acc n =>
    simp only [exec] at he ⊢
    obtain ⟨v, hv, e⟩ := Option.map_eq_some_iff.mp he
    obtain ⟨rfl, rfl⟩ := Prod.mk.inj e
    rw [same_read hsame hv]
    exact ⟨t, rfl, hsame, rfl, rfl, rfl, rfl⟩
  | assign n v =>
    simp only [exec] at he ⊢
    obtain ⟨w, hw, e⟩ := Option.map_eq_some_iff.mp he
    obtain ⟨rfl, rfl⟩ := Prod.mk.inj e
    rw [same_read hsame hw]
    refine ⟨_, rfl, ⟨h1, h2, h3, ?_⟩, rfl, rfl, rfl, rfl⟩
    intro x k1 k2
    show upd t.mem (t.sp + n) _ (x + (t.high - s.high)) = shiftWord _ (upd s.mem (s.sp + n) _ x)
    by_cases e : x = s.sp + n
    · rw [show x + (t.high - s.high) = t.sp + n by omega, upd_same, e, upd_same]; rfl
    · rw [upd_ne _ _ (by omega), upd_ne _ _ e]; exact h4 x k1 k2
  | pushTrap pc env extra =>
    simp only [exec] at he ⊢
    split at he
    · obtain ⟨rfl, rfl⟩ := Prod.mk.inj (Option.some.inj he)
      rw [if_pos (by omega)]
      refine ⟨_, rfl, ⟨?_, ?_, ?_, ?_⟩, rfl, rfl, rfl, rfl⟩
      · show t.high - (t.sp - 4) = s.high - (s.sp - 4); omega
      · show t.high - (t.sp - 4) = s.high - (s.sp - 4); omega
      · show s.sp - 4 - s.low ≤ t.sp - 4 - t.low; omega
      · intro x k1 k2
        have k1 : s.sp - 4 ≤ x := k1
        show upd (upd (upd (upd t.mem (t.sp - 4) _) (t.sp - 4 + 1) _) (t.sp - 4 + 2) _) (t.sp - 4 + 3) _ (x + (t.high - s.high)) =
          shiftWord (t.high - s.high) (upd (upd (upd (upd s.mem (s.sp - 4) _) (s.sp - 4 + 1) _) (s.sp - 4 + 2) _) (s.sp - 4 + 3) _ x)
        by_cases e3 : x = s.sp - 4 + 3
        · rw [show x + (t.high - s.high) = t.sp - 4 + 3 by omega, upd_same, e3, upd_same]; rfl
        · rw [upd_ne _ _ (by omega), upd_ne _ _ e3]
          by_cases e2 : x = s.sp - 4 + 2
          · rw [show x + (t.high - s.high) = t.sp - 4 + 2 by omega, upd_same, e2, upd_same]; rfl
          · rw [upd_ne _ _ (by omega), upd_ne _ _ e2]
            by_cases e1 : x = s.sp - 4 + 1
            · rw [show x + (t.high - s.high) = t.sp - 4 + 1 by omega, upd_same, e1, upd_same]
              show Word.link t.trapsp = Word.link (s.trapsp + (t.high - s.high))
              congr 1; omega
            · rw [upd_ne _ _ (by omega), upd_ne _ _ e1]
              by_cases e0 : x = s.sp - 4
              · rw [show x + (t.high - s.high) = t.sp - 4 by omega, upd_same, e0, upd_same]; rfl
              · rw [upd_ne _ _ (by omega), upd_ne _ _ e0]; exact h4 x (by omega) k2
    · exact absurd he (by simp)
  | popTrap =>
    simp only [exec] at he ⊢
    split at he
    · rename_i hsp
      rw [if_pos ⟨by omega, by omega⟩]
      obtain ⟨a, ps, rfl, c1, c2, c3, c4⟩ := hc.inv (by omega)
      rw [hsp.1, c1] at he
      obtain ⟨rfl, rfl⟩ := Prod.mk.inj (Option.some.inj he)
      have := h4 (s.trapsp + 1) (by omega) (by omega)
      rw [show s.trapsp + 1 + (t.high - s.high) = t.sp + 1 by omega, c1] at this
      rw [this]
      refine ⟨_, rfl, ⟨?_, ?_, ?_, ?_⟩, rfl, rfl, rfl, rfl⟩
      · show t.high - (t.sp + 4) = s.high - (s.trapsp + 4); omega
      · show t.high - (a + (t.high - s.high)) = s.high - a; omega
      · show s.trapsp + 4 - s.low ≤ t.sp + 4 - t.low; omega
      · intro x k1 k2
        have k1 : s.trapsp + 4 ≤ x := k1
        exact h4 x (by omega) k2
    · exact absurd he (by simp)
  | raise offset =>
    simp only [exec] at he ⊢
    split at he
    · obtain ⟨rfl, rfl⟩ := Prod.mk.inj (Option.some.inj he)
      rw [if_pos (by omega)]
      refine ⟨_, rfl, ⟨?_, h2, ?_, ?_⟩, rfl, rfl, rfl, rfl⟩
      · show t.high - t.trapsp = s.high - s.trapsp; omega
      · show s.trapsp - s.low ≤ t.trapsp - t.low; omega
      · intro x k1 k2
        have k1 : s.trapsp ≤ x := k1
        exact h4 x (by omega) k2
    · rw [if_neg (by omega)]
      split at he
      · rename_i hno pc a env extra w0 w1 w2 w3
        obtain ⟨rfl, rfl⟩ := Prod.mk.inj (Option.some.inj he)
        obtain ⟨b, ps, rfl, c1, c2, c3, c4⟩ := hc.inv (by omega)
        have j0 := h4 s.trapsp (by omega) (by omega)
        have j1 := h4 (s.trapsp + 1) (by omega) (by omega)
        have j2 := h4 (s.trapsp + 2) (by omega) (by omega)
        have j3 := h4 (s.trapsp + 3) (by omega) (by omega)
        rw [show s.trapsp + (t.high - s.high) = t.trapsp by omega, w0] at j0
        rw [show s.trapsp + 1 + (t.high - s.high) = t.trapsp + 1 by omega, w1] at j1
        rw [show s.trapsp + 2 + (t.high - s.high) = t.trapsp + 2 by omega, w2] at j2
        rw [show s.trapsp + 3 + (t.high - s.high) = t.trapsp + 3 by omega, w3] at j3
        rw [j0, j1, j2, j3]
        refine ⟨_, rfl, ⟨?_, ?_, ?_, ?_⟩, rfl, rfl, rfl, rfl⟩
        · show t.high - (t.trapsp + 4) = s.high - (s.trapsp + 4); omega
        · show t.high - (a + (t.high - s.high)) = s.high - a; omega
        · show s.trapsp + 4 - s.low ≤ t.trapsp + 4 - t.low; omega
        · intro x k1 k2
          have k1 : s.trapsp + 4 ≤ x := k1
          exact h4 x (by omega) k2
      · exact absurd he (by simp)

theorem Same.refl (s : St) : Same s s := by
  refine ⟨rfl, rfl, Int.le_refl _, ?_⟩
  intro x _ _
  rw [Int.sub_self, Int.add_zero]
  cases s.mem x with
  | val v => rfl
  | link a => simp [shiftWord]

theorem shiftWord_add (d e : Int) (w : Word) : shiftWord e (shiftWord d w) = shiftWord (d + e) w := by
  cases w with
  | val v => rfl
  | link a => simp only [shiftWord]; congr 1; omega

theorem Same.trans {s t u : St} (h : Same s t) (k : Same t u) : Same s u := by
  refine ⟨k.sp.trans h.sp, k.trapsp.trans h.trapsp, Int.le_trans h.room k.room, ?_⟩
  intro x h1 h2
  have a1 := h.sp
  have := k.slots (x + (t.high - s.high)) (by omega) (by omega)
  rw [show x + (t.high - s.high) + (u.high - t.high) = x + (u.high - s.high) by omega, h.slots x h1 h2, shiftWord_add] at this
  rw [this]
  congr 1
  omega

/-- a program, and what it sees -/
inductive Run : St → List Op → List Obs → St → Prop
  | nil (s) : Run s [] [] s
  | cons {s op o s' ops os u} : exec s op = some (o, s') → Run s' ops os u → Run s (op :: ops) (o :: os) u

/-- the same with reallocations at any points, to any places -/
inductive RunR : St → List Op → List Obs → St → Prop
  | nil (s) : RunR s [] [] s
  | cons {s op o s' ops os u} : exec s op = some (o, s') → RunR s' ops os u → RunR s (op :: ops) (o :: os) u
  | realloc {s newLow junk s' ops os u} : realloc s newLow junk = some s' → RunR s' ops os u → RunR s ops os u

theorem run_same {t s' : St} {ops : List Op} {os : List Obs} (r : RunR t ops os s') : ∀ s u os', Ok s → Ok t → Same s t → Run s ops os' u →
    os' = os ∧ Same u s' := by
  induction r with
  | nil t =>
    intro s u os' hs ht h r
    cases r with
    | nil => exact ⟨rfl, h⟩
  | @cons t op o t' ops os v he r ih =>
    intro s u os' hs ht h r'
    cases r' with
    | @cons _ _ o' s' _ os'' _ he' r'' =>
      obtain ⟨t2, k1, k2, _⟩ := C29_exec hs h he'
      rw [he] at k1
      obtain ⟨rfl, rfl⟩ := Prod.mk.inj (Option.some.inj k1)
      obtain ⟨e1, e2⟩ := ih s' u os'' (exec_ok hs he') (exec_ok ht he) k2 r''
      exact ⟨by rw [e1], e2⟩
  | @realloc t newLow junk t' ops os v he r ih =>
    intro s u os' hs ht h r'
    by_cases hm : t.high - t.low < maxSize
    · obtain ⟨t2, k1, k2, k3, _⟩ := C29_realloc ht hm newLow junk
      rw [he] at k1
      obtain rfl := Option.some.inj k1
      exact ih s u os' hs k2 (h.trans k3) r'
    · unfold Stack.realloc at he
      dsimp only at he
      rw [if_pos (by omega)] at he
      exact absurd he (by simp)

/-- C29: a program that runs without reallocation sees the same, and comes to the same stack, when the stack is reallocated any number
of times on the way. -/
theorem C29_run {s u v : St} {ops : List Op} {os os' : List Obs} (hs : Ok s) (r : Run s ops os u) (r' : RunR s ops os' v) : os' = os ∧ Same u v := by
  obtain ⟨h1, h2⟩ := run_same r' s u os hs hs (.refl s) r
  exact ⟨h1.symm, h2⟩

/-- C29: the stack is in order at every point, so a reallocation is possible at every point until the limit. -/
theorem C29_ok {mem : Int → Word} {low : Int} {ops : List Op} {os : List Obs} {u : St} (r : RunR (init mem low) ops os u) : Ok u := by
  have : ∀ s ops os u, RunR s ops os u → Ok s → Ok u := by
    intro s ops os u r
    induction r with
    | nil s => exact id
    | cons he _ ih => exact fun h => ih (exec_ok h he)
    | @realloc s newLow junk s' ops os u he _ ih =>
      intro h
      by_cases hm : s.high - s.low < maxSize
      · obtain ⟨t2, k1, k2, _⟩ := C29_realloc h hm newLow junk
        rw [he] at k1
        obtain rfl := Option.some.inj k1
        exact ih k2
      · unfold Stack.realloc at he
        dsimp only at he
        rw [if_pos (by omega)] at he
        exact absurd he (by simp)
  exact this _ _ _ _ r (init_ok mem low)

/-- C29: a handler set before a reallocation is found after it. -/
example (mem junk : Int → Word) : ∃ u, RunR (init mem 1000) [.push 7, .pushTrap 11 12 13, .push 5, .raise 0, .acc 0] [.unit, .unit, .unit, .handler 11 12 13, .value 7] u := by
  obtain ⟨s1, h1⟩ : ∃ s1, exec (init mem 1000) (.push 7) = some (.unit, s1) := ⟨_, rfl⟩
  obtain ⟨s2, h2⟩ : ∃ s2, exec s1 (.pushTrap 11 12 13) = some (.unit, s2) := by
    obtain ⟨_, rfl⟩ := Prod.mk.inj (Option.some.inj h1); exact ⟨_, rfl⟩
  obtain ⟨s3, h3⟩ : ∃ s3, exec s2 (.push 5) = some (.unit, s3) := by
    obtain ⟨_, rfl⟩ := Prod.mk.inj (Option.some.inj h1)
    obtain ⟨_, rfl⟩ := Prod.mk.inj (Option.some.inj h2); exact ⟨_, rfl⟩
  obtain ⟨s4, h4⟩ : ∃ s4, exec s3 (.raise 0) = some (.handler 11 12 13, s4) := by
    obtain ⟨_, rfl⟩ := Prod.mk.inj (Option.some.inj h1)
    obtain ⟨_, rfl⟩ := Prod.mk.inj (Option.some.inj h2)
    obtain ⟨_, rfl⟩ := Prod.mk.inj (Option.some.inj h3); exact ⟨_, rfl⟩
  obtain ⟨s5, h5⟩ : ∃ s5, exec s4 (.acc 0) = some (.value 7, s5) := by
    obtain ⟨_, rfl⟩ := Prod.mk.inj (Option.some.inj h1)
    obtain ⟨_, rfl⟩ := Prod.mk.inj (Option.some.inj h2)
    obtain ⟨_, rfl⟩ := Prod.mk.inj (Option.some.inj h3)
    obtain ⟨_, rfl⟩ := Prod.mk.inj (Option.some.inj h4); exact ⟨_, rfl⟩
  have ok3 : Ok s3 := exec_ok (exec_ok (exec_ok (init_ok mem 1000) h1) h2) h3
  have hsz : s3.high - s3.low < maxSize := by
    obtain ⟨_, rfl⟩ := Prod.mk.inj (Option.some.inj h1)
    obtain ⟨_, rfl⟩ := Prod.mk.inj (Option.some.inj h2)
    obtain ⟨_, rfl⟩ := Prod.mk.inj (Option.some.inj h3)
    show (5096 : Int) - 1000 < 1048576
    omega
  obtain ⟨t3, r1, r2, r3, _⟩ := C29_realloc ok3 hsz 50000 junk
  obtain ⟨t4, q1, q2, _⟩ := C29_exec ok3 r3 h4
  obtain ⟨t5, p1, _⟩ := C29_exec (exec_ok ok3 h4) q2 h5
  exact ⟨t5, .cons h1 (.cons h2 (.cons h3 (.realloc r1 (.cons q1 (.cons p1 (.nil _))))))⟩

end Mosml.Stack
