import Verif.Marshal.Props

/-!
The table of objects already written: open addressing with linear probing, src/runtime/extern.c:16-44 and 66-82,
intext.h:54-80.  `emitAllH` is `emit_all` with this table; it computes the same as `emitAll`, whose table is a list.
-/
namespace Mosml.Marshal

/-- extern_table, extern_table_size and extern_table_used; `obj = 0` marks a free slot -/
structure HTab where
  n : Nat
  slot : Nat → Nat × Nat
  used : Nat

/-- intext.h:77 `Hash` -/
def hash (n v : Nat) : Nat := v / 8 % n

/-- extern.c:70-75, and 35-38 with `v = 0`: the slot with `v` in it or the first free one -/
def probe (n : Nat) (slot : Nat → Nat × Nat) (v : Nat) : Nat → Nat → Nat
  | 0, h => h
  | fuel + 1, h =>
    if (slot h).1 = 0 then h
    else if (slot h).1 = v then h
    else probe n slot v fuel (if h + 1 ≥ n then 0 else h + 1)

def setSlot (slot : Nat → Nat × Nat) (h : Nat) (x : Nat × Nat) : Nat → Nat × Nat := fun i => if i = h then x else slot i

/-- extern.c:33-41: the loop of `resize_extern_table` over the first `k` old slots.  Free slots are re-inserted too. -/
def rehash (n : Nat) (old : Nat → Nat × Nat) : Nat → Nat → Nat × Nat
  | 0 => fun _ => (0, 0)
  | k + 1 =>
    let slot := rehash n old k
    setSlot slot (probe n slot 0 n (hash n (old k).1)) (old k)

/-- extern.c:25-43 -/
def resize (t : HTab) : HTab := ⟨2 * t.n, rehash (2 * t.n) t.slot t.n, t.used⟩

/-- extern.c:68-75, 81-83: look `v` up; enter it with `ofs` when it is not there -/
def findOrAdd (t : HTab) (v ofs : Nat) : Option Nat × HTab :=
  let t := if 2 * t.used ≥ t.n then resize t else t
  let h := probe t.n t.slot v t.n (hash t.n v)
  if (t.slot h).1 = v then (some (t.slot h).2, t)
  else (none, ⟨t.n, setSlot t.slot h (v, ofs), t.used + 1⟩)

structure ExtH where
  block : List Nat
  table : HTab

/-- extern.c:56-89 -/
def emitH (W : Nat) (m : Mem) (v : Nat) (st : ExtH) : Nat × ExtH :=
  if v % 2 = 1 then (v, st)
  else
    let size := wosizeHd (m (v - W))
    if size = 0 then (tagHd (m (v - W)) * 4 + 2, st)
    else
      let res := (st.block.length + 1) * W
      match findOrAdd st.table v res with
      | (some ofs, t) => (ofs, ⟨st.block, t⟩)
      | (none, t) => (res, ⟨st.block ++ mkHeader size (tagHd (m (v - W))) black :: fields W m v size, t⟩)

/-- extern.c:117-122 -/
def scanFieldsH (W : Nat) (m : Mem) : Nat → Nat → ExtH → ExtH
  | 0, _, st => st
  | n + 1, i, st =>
    let r := emitH W m (st.block.getD i 0) st
    scanFieldsH W m n (i + 1) { r.2 with block := r.2.block.set i r.1 }

/-- extern.c:97-126 -/
def scanLoopH (W : Nat) (m : Mem) : Nat → Nat → ExtH → Out ExtH
  | 0, _, _ => .fuel
  | fuel + 1, read, st =>
    if read < st.block.length then
      let hd := st.block.getD read 0
      let sz := wosizeHd hd
      let tag := tagHd hd
      if tag = stringTag ∨ tag = doubleTag then scanLoopH W m fuel (read + 1 + sz) st
      else if tag = abstractTag ∨ tag = finalTag then .exn "output_value: abstract value"
      else if tag = closureTag then .exn "output_value: functional value"
      else scanLoopH W m fuel (read + 1 + sz) (scanFieldsH W m sz (read + 1) st)
    else .ok st

/-- extern.c:91-127 `emit_all`, extern.c:135-141 -/
def emitAllH (W : Nat) (m : Mem) (fuel : Nat) (root : Nat) : Out (Nat × List Nat) :=
  let r := emitH W m root ⟨[], ⟨2039, fun _ => (0, 0), 0⟩⟩
  match scanLoopH W m fuel 0 r.2 with
  | .ok st => .ok (r.1, st.block)
  | .exn s => .exn s
  | .fuel => .fuel

/-! ### The invariant -/

/-- all of the first `i` slots from the home of `v` on are taken -/
def Taken (n : Nat) (slot : Nat → Nat × Nat) (v i : Nat) : Prop :=
  ∀ j, j < i → (slot ((hash n v + j) % n)).1 ≠ 0

/-- the slots hold exactly the pairs of `T` -/
structure Slots (n : Nat) (slot : Nat → Nat × Nat) (T : List (Nat × Nat)) : Prop where
  pos : 0 < n
  room : T.length < n
  keys : (T.map Prod.fst).Nodup
  nz : ∀ x ∈ T, x.1 ≠ 0
  there : ∀ x ∈ T, ∃ i, i < n ∧ slot ((hash n x.1 + i) % n) = x ∧ Taken n slot x.1 i
  only : ∀ p, p < n → (slot p).1 ≠ 0 → slot p ∈ T
  inj : ∀ p q, p < n → q < n → (slot p).1 ≠ 0 → (slot p).1 = (slot q).1 → p = q

theorem hash_lt {n : Nat} (h : 0 < n) (v : Nat) : hash n v < n := Nat.mod_lt _ h

theorem next_eq {n h : Nat} (hh : h < n) : (if h + 1 ≥ n then 0 else h + 1) = (h + 1) % n := by
  split_ifs with c
  · rw [show h + 1 = n by omega, Nat.mod_self]
  · rw [Nat.mod_eq_of_lt (by omega)]

/-- the probe stops at the first slot that is free or holds `v` -/
theorem probe_spec {n : Nat} {slot : Nat → Nat × Nat} {v : Nat} (hn : 0 < n) {i : Nat}
    (hi : (slot ((hash n v + i) % n)).1 = 0 ∨ (slot ((hash n v + i) % n)).1 = v)
    (hb : ∀ j, j < i → (slot ((hash n v + j) % n)).1 ≠ 0 ∧ (slot ((hash n v + j) % n)).1 ≠ v) (w : Nat) (hw : hash n w = hash n v)
    : ∀ (fuel j : Nat), j ≤ i → i < j + fuel →
    probe n slot v fuel ((hash n w + j) % n) = (hash n v + i) % n
  | 0, j, h1, h2 => by omega
  | fuel + 1, j, h1, h2 => by
    rw [hw]
    by_cases hj : j = i
    · subst hj
      rw [probe]
      rcases hi with h | h
      · rw [if_pos h]
      · split_ifs <;> rfl
    · have := hb j (by omega)
      rw [probe, if_neg this.1, if_neg this.2, next_eq (Nat.mod_lt _ hn), Nat.mod_add_mod]
      have := probe_spec hn hi hb w hw fuel (j + 1) (by omega) (by omega)
      rw [hw] at this
      exact this

/-- there is a free slot among the `n` from the home of `v` on -/
theorem free_slot {n : Nat} {slot : Nat → Nat × Nat} {T : List (Nat × Nat)} (h : Slots n slot T) (v : Nat) :
    ∃ i, i < n ∧ (slot ((hash n v + i) % n)).1 = 0 := by
  by_contra hc
  push Not at hc
  have hsub : ∀ p, p < n → (slot p).1 ≠ 0 := by
    intro p hp
    have hh := hash_lt h.pos v
    by_cases c : hash n v ≤ p
    · have := hc (p - hash n v) (by omega)
      rwa [show hash n v + (p - hash n v) = p by omega, Nat.mod_eq_of_lt hp] at this
    · have := hc (p + n - hash n v) (by omega)
      rwa [show hash n v + (p + n - hash n v) = p + n by omega, Nat.add_mod_right, Nat.mod_eq_of_lt hp] at this
  have hnd : ((List.range n).map slot).Nodup := by
    apply List.Nodup.map_on _ List.nodup_range
    intro p hp q hq e
    exact h.inj p q (List.mem_range.1 hp) (List.mem_range.1 hq) (hsub p (List.mem_range.1 hp)) (by rw [e])
  have := List.Subperm.length_le (List.subperm_of_subset hnd (l₂ := T) (by
    intro x hx
    obtain ⟨p, hp, rfl⟩ := List.mem_map.1 hx
    exact h.only p (List.mem_range.1 hp) (hsub p (List.mem_range.1 hp))))
  rw [List.length_map, List.length_range] at this
  have := h.room
  omega

/-- the first free slot -/
theorem first_free {n : Nat} {slot : Nat → Nat × Nat} {T : List (Nat × Nat)} (h : Slots n slot T) (v : Nat) :
    ∃ i, i < n ∧ (slot ((hash n v + i) % n)).1 = 0 ∧ Taken n slot v i := by
  classical
  have hex := free_slot h v
  have hex' : ∃ i, (slot ((hash n v + i) % n)).1 = 0 := hex.imp fun _ h => h.2
  refine ⟨Nat.find hex', ?_, Nat.find_spec hex', fun j hj => Nat.find_min hex' hj⟩
  obtain ⟨i, h1, h2⟩ := hex
  exact lt_of_le_of_lt (Nat.find_min' hex' h2) h1

/-- a taken slot before which `v` was not found: looking up something that is not in the table -/
theorem probe_new {n : Nat} {slot : Nat → Nat × Nat} {T : List (Nat × Nat)} (h : Slots n slot T) {v : Nat}
    (hv : v ∉ T.map Prod.fst) (w : Nat) (hw : hash n w = hash n v) :
    ∃ i, i < n ∧ probe n slot v n (hash n w) = (hash n v + i) % n ∧ (slot ((hash n v + i) % n)).1 = 0 ∧ Taken n slot v i := by
  obtain ⟨i, h1, h2, h3⟩ := first_free h v
  refine ⟨i, h1, ?_, h2, h3⟩
  have := probe_spec (v := v) h.pos (.inl h2) (fun j hj => ⟨h3 j hj, fun e => hv ?_⟩) w hw n 0 (Nat.zero_le _) (by omega)
  · rwa [Nat.add_zero, Nat.mod_eq_of_lt (hash_lt h.pos w)] at this
  · have := h.only _ (Nat.mod_lt _ h.pos) (h3 j hj)
    exact List.mem_map.2 ⟨_, this, e⟩

theorem probe_old {n : Nat} {slot : Nat → Nat × Nat} {T : List (Nat × Nat)} (h : Slots n slot T) {x : Nat × Nat}
    (hx : x ∈ T) : slot (probe n slot x.1 n (hash n x.1)) = x := by
  obtain ⟨i, h1, h2, h3⟩ := h.there x hx
  have := probe_spec (v := x.1) (slot := slot) (i := i) h.pos (.inr (by rw [h2]))
    (fun j hj => ⟨h3 j hj, fun e => ?_⟩) x.1 rfl n 0 (Nat.zero_le _) (by omega)
  · rw [Nat.add_zero, Nat.mod_eq_of_lt (hash_lt h.pos _)] at this
    rw [this, h2]
  · have e2 := h.inj _ _ (Nat.mod_lt _ h.pos) (Nat.mod_lt _ h.pos) (h3 j hj) (e.trans (congrArg Prod.fst h2.symm))
    have e3 : ((hash n x.1 + j) % n + n - hash n x.1) % n = ((hash n x.1 + i) % n + n - hash n x.1) % n := by rw [e2]
    have hh := hash_lt h.pos x.1
    have key : ∀ k, k < n → ((hash n x.1 + k) % n + n - hash n x.1) % n = k := by
      intro k hk
      by_cases c : hash n x.1 + k < n
      · rw [Nat.mod_eq_of_lt c, show hash n x.1 + k + n - hash n x.1 = k + n by omega, Nat.add_mod_right, Nat.mod_eq_of_lt hk]
      · rw [Nat.mod_eq_sub_mod (by omega : n ≤ hash n x.1 + k), Nat.mod_eq_of_lt (by omega : hash n x.1 + k - n < n),
          show hash n x.1 + k - n + n - hash n x.1 = k by omega, Nat.mod_eq_of_lt hk]
    rw [key j (by omega), key i h1] at e3
    omega

/-- entering a new pair in a free slot -/
theorem Slots.add {n : Nat} {slot : Nat → Nat × Nat} {T : List (Nat × Nat)} (h : Slots n slot T) {x : Nat × Nat}
    (hv : x.1 ∉ T.map Prod.fst) (h0 : x.1 ≠ 0) (hr : T.length + 1 < n) {i : Nat} (hi : i < n)
    (hf : (slot ((hash n x.1 + i) % n)).1 = 0) (ht : Taken n slot x.1 i) :
    Slots n (setSlot slot ((hash n x.1 + i) % n) x) (T ++ [x]) := by
  have hkeep : ∀ p, (slot p).1 ≠ 0 → setSlot slot ((hash n x.1 + i) % n) x p = slot p := by
    intro p hp
    unfold setSlot
    rw [if_neg]
    rintro rfl
    exact hp hf
  have hset : setSlot slot ((hash n x.1 + i) % n) x ((hash n x.1 + i) % n) = x := if_pos rfl
  have htk : ∀ y k, Taken n slot y k → Taken n (setSlot slot ((hash n x.1 + i) % n) x) y k := by
    intro y k hk j hj
    rw [hkeep _ (hk j hj)]; exact hk j hj
  refine ⟨h.pos, by simpa using hr, ?_, ?_, ?_, ?_, ?_⟩
  · rw [List.map_append, List.nodup_append]
    refine ⟨h.keys, by simp, ?_⟩
    intro a ha b hb e
    simp only [List.map_cons, List.map_nil, List.mem_singleton] at hb
    exact hv (by rw [← hb, ← e]; exact ha)
  · intro y hy
    rcases List.mem_append.1 hy with hy | hy
    · exact h.nz y hy
    · rw [List.mem_singleton] at hy; rw [hy]; exact h0
  · intro y hy
    rcases List.mem_append.1 hy with hy | hy
    · obtain ⟨k, k1, k2, k3⟩ := h.there y hy
      refine ⟨k, k1, ?_, htk _ _ k3⟩
      rw [hkeep _ (by rw [k2]; exact h.nz y hy), k2]
    · rw [List.mem_singleton] at hy
      subst hy
      exact ⟨i, hi, hset, htk _ _ ht⟩
  · intro p hp hp0
    by_cases c : p = (hash n x.1 + i) % n
    · rw [c, hset]; simp
    · have e : setSlot slot ((hash n x.1 + i) % n) x p = slot p := if_neg c
      rw [e] at hp0 ⊢
      exact List.mem_append_left _ (h.only p hp hp0)
  · intro p q hp hq hp0 e
    have notin : ∀ r, r < n → (slot r).1 ≠ 0 → (slot r).1 ≠ x.1 := by
      intro r hr hr0 e
      exact hv (List.mem_map.2 ⟨_, h.only r hr hr0, e⟩)
    have e1 : ∀ r, r ≠ (hash n x.1 + i) % n → setSlot slot ((hash n x.1 + i) % n) x r = slot r := fun r hr => if_neg hr
    by_cases c : p = (hash n x.1 + i) % n <;> by_cases d : q = (hash n x.1 + i) % n
    · rw [c, d]
    · rw [c, hset, e1 q d] at e
      exact absurd e.symm (notin q hq (by rw [← e]; exact h0))
    · rw [e1 p c] at hp0 e
      rw [d, hset] at e
      exact absurd e (notin p hp hp0)
    · rw [e1 p c] at hp0 e
      rw [e1 q d] at e
      exact h.inj p q hp hq hp0 e

/-- the state of the new table after the first `k` old slots: it holds their pairs -/
theorem rehash_spec {n : Nat} {slot : Nat → Nat × Nat} {T : List (Nat × Nat)} (h : Slots n slot T) :
    ∀ k, k ≤ n → ∃ U, Slots (2 * n) (rehash (2 * n) slot k) U ∧ U.length ≤ k ∧
      (∀ x, x ∈ U ↔ ∃ p, p < k ∧ slot p = x ∧ x.1 ≠ 0)
  | 0, _ => by
    refine ⟨[], ⟨by have := h.pos; omega, by have := h.pos; simpa using this, by simp, by simp, by simp, ?_, ?_⟩, by simp, by simp⟩
    · intro p _ hp; exact absurd rfl hp
    · intro p q _ _ hp; exact absurd rfl hp
  | k + 1, hk => by
    obtain ⟨U, hU, hl, hm⟩ := rehash_spec h k (by omega)
    rw [rehash]
    by_cases c : (slot k).1 = 0
    · -- a free slot is put in a free slot
      have h0 : (0 : Nat) ∉ U.map Prod.fst := by
        intro hc
        obtain ⟨x, hx, e⟩ := List.mem_map.1 hc
        exact hU.nz x hx e
      obtain ⟨i, i1, i2, i3, -⟩ := probe_new hU h0 (slot k).1 (by rw [c])
      refine ⟨U, ?_, by omega, ?_⟩
      · obtain ⟨p, hp⟩ : ∃ p, p = probe (2 * n) (rehash (2 * n) slot k) 0 (2 * n) (hash (2 * n) (slot k).1) := ⟨_, rfl⟩
        have hp0 : (rehash (2 * n) slot k p).1 = 0 := by rw [hp, i2]; exact i3
        rw [← hp]
        have hfst : ∀ q, (setSlot (rehash (2 * n) slot k) p (slot k) q).1 = (rehash (2 * n) slot k q).1 := by
          intro q
          unfold setSlot
          split_ifs with e
          · rw [c, e, hp0]
          · rfl
        have hkeep : ∀ q, (rehash (2 * n) slot k q).1 ≠ 0 → setSlot (rehash (2 * n) slot k) p (slot k) q = rehash (2 * n) slot k q := by
          intro q hq
          unfold setSlot
          rw [if_neg]
          rintro rfl
          exact hq hp0
        refine ⟨hU.pos, hU.room, hU.keys, hU.nz, ?_, ?_, ?_⟩
        · intro x hx
          obtain ⟨j, j1, j2, j3⟩ := hU.there x hx
          exact ⟨j, j1, by rw [hkeep _ (by rw [j2]; exact hU.nz x hx), j2], fun r hr => by rw [hfst]; exact j3 r hr⟩
        · intro q hq hq0
          rw [hfst] at hq0
          rw [hkeep _ hq0]
          exact hU.only q hq hq0
        · intro q r hq hr hq0 e
          rw [hfst] at hq0 e
          rw [hfst] at e
          exact hU.inj q r hq hr hq0 e
      · intro x
        rw [hm]
        constructor
        · rintro ⟨p, p1, p2⟩; exact ⟨p, by omega, p2⟩
        · rintro ⟨p, p1, p2, p3⟩
          refine ⟨p, ?_, p2, p3⟩
          have : p ≠ k := by rintro rfl; rw [p2] at c; exact p3 c
          omega
    · have hnew : (slot k).1 ∉ U.map Prod.fst := by
        intro hc
        obtain ⟨x, hx, e⟩ := List.mem_map.1 hc
        obtain ⟨p, p1, p2, p3⟩ := (hm x).1 hx
        have := h.inj k p (by omega) (by omega) c (by rw [p2, e])
        omega
      -- probing for 0 stops at the first free slot
      obtain ⟨i, i1, i3, i4⟩ := first_free hU (slot k).1
      have i2 : probe (2 * n) (rehash (2 * n) slot k) 0 (2 * n) (hash (2 * n) (slot k).1) =
          (hash (2 * n) (slot k).1 + i) % (2 * n) := by
        have key : ∀ (fuel j : Nat), j ≤ i → i < j + fuel →
            probe (2 * n) (rehash (2 * n) slot k) 0 fuel ((hash (2 * n) (slot k).1 + j) % (2 * n)) =
              (hash (2 * n) (slot k).1 + i) % (2 * n) := by
          intro fuel
          induction fuel with
          | zero => intro j _ _; omega
          | succ fuel ih =>
            intro j h1 h2
            by_cases hj : j = i
            · subst hj; rw [probe, if_pos i3]
            · rw [probe, if_neg (i4 j (by omega)), if_neg (i4 j (by omega)), next_eq (Nat.mod_lt _ hU.pos), Nat.mod_add_mod]
              exact ih (j + 1) (by omega) (by omega)
        have := key (2 * n) 0 (Nat.zero_le _) (by omega)
        rwa [Nat.add_zero, Nat.mod_eq_of_lt (hash_lt hU.pos _)] at this
      rw [i2]
      refine ⟨U ++ [slot k], hU.add hnew c (by omega) i1 i3 i4, by simpa using hl, ?_⟩
      intro x
      rw [List.mem_append, hm, List.mem_singleton]
      constructor
      · rintro (⟨p, p1, p2⟩ | rfl)
        · exact ⟨p, by omega, p2⟩
        · exact ⟨k, by omega, rfl, c⟩
      · rintro ⟨p, p1, p2, p3⟩
        by_cases e : p = k
        · right; rw [← p2, e]
        · left; exact ⟨p, by omega, p2, p3⟩

/-- the table holds the pairs of `T`, at most half full (plus one) -/
structure TabRep (t : HTab) (T : List (Nat × Nat)) : Prop where
  slots : Slots t.n t.slot T
  used : t.used = T.length
  big : 4 ≤ t.n
  half : 2 * T.length ≤ t.n + 1

theorem Slots.perm {n : Nat} {slot : Nat → Nat × Nat} {T U : List (Nat × Nat)} (h : Slots n slot U)
    (hk : (T.map Prod.fst).Nodup) (hl : T.length < n) (hm : ∀ x, x ∈ T ↔ x ∈ U) : Slots n slot T :=
  ⟨h.pos, hl, hk, fun x hx => h.nz x ((hm x).1 hx), fun x hx => h.there x ((hm x).1 hx),
    fun p hp h0 => (hm _).2 (h.only p hp h0), h.inj⟩

theorem TabRep.resize {t : HTab} {T : List (Nat × Nat)} (h : TabRep t T) : TabRep (resize t) T ∧ 2 * T.length + 2 ≤ (Marshal.resize t).n := by
  obtain ⟨U, hU, -, hm⟩ := rehash_spec h.slots t.n (Nat.le_refl _)
  have h1 := h.half
  have h2 := h.big
  refine ⟨⟨hU.perm h.slots.keys (by omega) ?_, h.used, ?_, ?_⟩, ?_⟩
  · intro x
    rw [hm]
    constructor
    · intro hx
      obtain ⟨i, -, hi, -⟩ := h.slots.there x hx
      exact ⟨_, Nat.mod_lt _ h.slots.pos, hi, h.slots.nz x hx⟩
    · rintro ⟨p, p1, p2, p3⟩
      rw [← p2]
      exact h.slots.only p p1 (by rw [p2]; exact p3)
  · show 4 ≤ 2 * t.n; omega
  · show 2 * T.length ≤ 2 * t.n + 1; omega
  · show 2 * T.length + 2 ≤ 2 * t.n; omega

/-- looking up and entering, against the list -/
theorem findOrAdd_spec {t : HTab} {T : List (Nat × Nat)} (h : TabRep t T) {v : Nat} (hv : v ≠ 0) (ofs : Nat) :
    (findOrAdd t v ofs).1 = lookupTab T v ∧
    TabRep (findOrAdd t v ofs).2 (match lookupTab T v with | some _ => T | none => T ++ [(v, ofs)]) := by
  unfold findOrAdd
  obtain ⟨t', ht'⟩ : ∃ t', t' = if 2 * t.used ≥ t.n then resize t else t := ⟨_, rfl⟩
  rw [← ht']
  have h' : TabRep t' T ∧ 2 * T.length + 1 ≤ t'.n := by
    rw [ht']
    split_ifs with c
    · have := h.resize; exact ⟨this.1, by omega⟩
    · rw [h.used] at c; exact ⟨h, by omega⟩
  obtain ⟨hr, hroom⟩ := h'
  dsimp only
  cases hl : lookupTab T v with
  | some o =>
    have hx := probe_old hr.slots (lookup_mem hl)
    dsimp only at hx
    rw [hx, if_pos rfl]
    exact ⟨rfl, hr⟩
  | none =>
    have hv' := lookup_none_iff.1 hl
    obtain ⟨i, i1, i2, i3, i4⟩ := probe_new hr.slots hv' v rfl
    rw [i2, i3, if_neg (fun e => hv e.symm)]
    have hb := hr.big
    refine ⟨rfl, hr.slots.add (x := (v, ofs)) hv' hv (by omega) i1 i3 i4, ?_, hr.big, ?_⟩
    · show t'.used + 1 = _; rw [hr.used]; simp
    · show 2 * (T ++ [(v, ofs)]).length ≤ t'.n + 1
      rw [List.length_append, List.length_singleton]; omega

/-- the two writers in step -/
def Same (a : ExtH) (b : Ext) : Prop := a.block = b.block ∧ TabRep a.table b.table

theorem emitH_spec {W : Nat} {m : Mem} (h0 : size W m 0 = 0) {a : ExtH} {b : Ext} (h : Same a b) (v : Nat) :
    (emitH W m v a).1 = (emit W m v b).1 ∧ Same (emitH W m v a).2 (emit W m v b).2 := by
  unfold emitH emit
  split_ifs with c
  · exact ⟨rfl, h⟩
  dsimp only
  by_cases hz : wosizeHd (m (v - W)) = 0
  · rw [if_pos hz, if_pos hz]
    exact ⟨rfl, h⟩
  rw [if_neg hz, if_neg hz]
  have hv : v ≠ 0 := by rintro rfl; exact hz h0
  obtain ⟨f1, f2⟩ := findOrAdd_spec h.2 hv ((a.block.length + 1) * W)
  rw [h.1] at f1 f2 ⊢
  cases hl : lookupTab b.table v with
  | some o =>
    rw [hl] at f1 f2
    cases hf : findOrAdd a.table v ((b.block.length + 1) * W) with
    | mk x t =>
      rw [hf] at f1 f2
      dsimp only at f1 f2
      subst f1
      exact ⟨rfl, rfl, f2⟩
  | none =>
    rw [hl] at f1 f2
    cases hf : findOrAdd a.table v ((b.block.length + 1) * W) with
    | mk x t =>
      rw [hf] at f1 f2
      dsimp only at f1 f2
      subst f1
      exact ⟨rfl, rfl, f2⟩

theorem scanFieldsH_spec {W : Nat} {m : Mem} (h0 : size W m 0 = 0) : ∀ (n i : Nat) (a : ExtH) (b : Ext), Same a b →
    Same (scanFieldsH W m n i a) (scanFields W m n i b)
  | 0, _, _, _, h => h
  | n + 1, i, a, b, h => by
    rw [scanFieldsH, scanFields]
    have := emitH_spec h0 h (b.block.getD i 0)
    rw [h.1]
    exact scanFieldsH_spec h0 n (i + 1) _ _ ⟨by dsimp only; rw [this.2.1, this.1], this.2.2⟩

theorem scanLoopH_spec {W : Nat} {m : Mem} (h0 : size W m 0 = 0) : ∀ (fuel read : Nat) (a : ExtH) (b : Ext), Same a b →
    match scanLoopH W m fuel read a, scanLoop W m fuel read b with
    | .ok x, .ok y => Same x y
    | .exn s, .exn t => s = t
    | .fuel, .fuel => True
    | _, _ => False
  | 0, _, _, _, _ => trivial
  | fuel + 1, read, a, b, h => by
    rw [scanLoopH, scanLoop, h.1]
    by_cases c1 : read < b.block.length
    · rw [if_pos c1, if_pos c1]
      dsimp only
      by_cases c2 : tagHd (b.block.getD read 0) = stringTag ∨ tagHd (b.block.getD read 0) = doubleTag
      · rw [if_pos c2, if_pos c2]; exact scanLoopH_spec h0 fuel _ _ _ h
      rw [if_neg c2, if_neg c2]
      by_cases c3 : tagHd (b.block.getD read 0) = abstractTag ∨ tagHd (b.block.getD read 0) = finalTag
      · rw [if_pos c3, if_pos c3]
      rw [if_neg c3, if_neg c3]
      by_cases c4 : tagHd (b.block.getD read 0) = closureTag
      · rw [if_pos c4, if_pos c4]
      rw [if_neg c4, if_neg c4]
      exact scanLoopH_spec h0 fuel _ _ _ (scanFieldsH_spec h0 _ _ _ _ h)
    · rw [if_neg c1, if_neg c1]; exact h

/-- C15: the open-addressing table, with its growth, behaves as the list of the objects written so far: the writer with
the real table computes the same.  (`size W m 0 = 0`: address 0 is not a block.) -/
theorem C15_table (W : Nat) (m : Mem) (h0 : size W m 0 = 0) (fuel root : Nat) :
    emitAllH W m fuel root = emitAll W m fuel root := by
  have hinit : Same ⟨[], ⟨2039, fun _ => (0, 0), 0⟩⟩ ⟨[], []⟩ := by
    refine ⟨rfl, ⟨by decide, by decide, by simp, by simp, by simp, ?_, ?_⟩, rfl, by decide, by decide⟩
    · intro p _ hp; exact absurd rfl hp
    · intro p q _ _ hp; exact absurd rfl hp
  unfold emitAllH emitAll
  obtain ⟨e1, e2⟩ := emitH_spec h0 hinit root
  dsimp only
  have := scanLoopH_spec h0 fuel 0 _ _ e2
  cases h1 : scanLoopH W m fuel 0 (emitH W m root ⟨[], ⟨2039, fun _ => (0, 0), 0⟩⟩).2 <;>
    cases h2 : scanLoop W m fuel 0 (emit W m root ⟨[], []⟩).2 <;> rw [h1, h2] at this
  · dsimp only; rw [e1, this.1]
  all_goals first | exact this.elim | rfl | (dsimp only at this ⊢; rw [this])

example : size 8 sample 0 = 0 := by decide

end Mosml.Marshal
