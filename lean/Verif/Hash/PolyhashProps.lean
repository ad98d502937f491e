import Verif.Hash.Polyhash

namespace Mosml.Hash.Polyhash

variable {K V W : Type}

/-! ### the specification: finite maps up to `same` -/

/-- a finite map: for every key the stored key and the value -/
abbrev FMap (K V : Type) := K → Option (K × V)

/-- `l` lists the contents of `m`, each key once -/
structure Lists (same : K → K → Bool) (l : List (K × V)) (m : FMap K V) : Prop where
  once : l.Pairwise (fun a b => same a.1 b.1 = false)
  get : ∀ k p, m k = some p ↔ p ∈ l ∧ same k p.1 = true

/-- a key equality, and a hash function that respects it -/
structure Keys (same : K → K → Bool) (hash : K → BitVec 63) : Prop where
  refl : ∀ a, same a a = true
  symm : ∀ a b, same a b = true → same b a = true
  trans : ∀ a b c, same a b = true → same b c = true → same a c = true
  hash : ∀ a b, same a b = true → hash a = hash b

variable {same : K → K → Bool} {hash : K → BitVec 63}

theorem Keys.symm' (h : Keys same hash) (a b : K) : same a b = same b a := by
  cases e : same a b with
  | true => exact (h.symm _ _ e).symm
  | false =>
    cases e' : same b a with
    | false => rfl
    | true => rw [h.symm _ _ e'] at e; exact absurd e (by simp)

theorem Lists.perm (h : Keys same hash) {l l' : List (K × V)} {m : FMap K V} (hl : Lists same l m) (p : l'.Perm l) : Lists same l' m := by
  refine ⟨?_, fun k q => by rw [hl.get, p.mem_iff]⟩
  exact (p.pairwise_iff (fun {a b} hab => by rw [h.symm']; exact hab)).mpr hl.once

theorem Lists.absent {l : List (K × V)} {m : FMap K V} (hl : Lists same l m) {k : K} (h0 : ∀ p ∈ l, same k p.1 = false) : m k = none := by
  cases e : m k with
  | none => rfl
  | some p =>
    have := (hl.get k p).mp e
    rw [h0 p this.1] at this; exact absurd this.2 (by simp)

theorem Lists.add (h : Keys same hash) {l : List (K × V)} {m : FMap K V} (hl : Lists same l m) {k : K} (v : V)
    (h0 : ∀ p ∈ l, same k p.1 = false) : Lists same ((k, v) :: l) (fun k' => if same k' k then some (k, v) else m k') := by
  refine ⟨List.pairwise_cons.mpr ⟨h0, hl.once⟩, ?_⟩
  intro k' p
  simp only [List.mem_cons]
  by_cases e : same k' k = true
  · simp only [e, if_true, Option.some.injEq]
    constructor
    · rintro rfl; exact ⟨.inl rfl, e⟩
    · rintro ⟨rfl | hp, hs⟩
      · rfl
      · have := h.trans _ _ _ (h.symm _ _ e) hs
        rw [h0 p hp] at this; exact absurd this (by simp)
  · simp only [e, if_false, hl.get, Bool.false_eq_true]
    constructor
    · rintro ⟨a, b⟩; exact ⟨.inr a, b⟩
    · rintro ⟨rfl | hp, hs⟩
      · exact absurd hs e
      · exact ⟨hp, hs⟩

theorem Lists.del (h : Keys same hash) {A B : List (K × V)} {m : FMap K V} {k k0 : K} {v0 : V} (hl : Lists same (A ++ (k0, v0) :: B) m)
    (hk : same k k0 = true) : m k = some (k0, v0) ∧ Lists same (A ++ B) (fun k' => if same k' k then none else m k') ∧
      (∀ p ∈ A ++ B, same k p.1 = false) := by
  have hl' := hl.perm h (l' := (k0, v0) :: (A ++ B)) (List.perm_middle.symm)
  obtain ⟨o1, o2⟩ := List.pairwise_cons.mp hl'.once
  have hn : ∀ p ∈ A ++ B, same k p.1 = false := by
    intro p hp
    cases e : same k p.1 with
    | false => rfl
    | true =>
      have := h.trans _ _ _ (h.symm _ _ hk) e
      rw [o1 p hp] at this; exact absurd this (by simp)
  refine ⟨(hl.get _ _).mpr ⟨by simp, hk⟩, ⟨o2, ?_⟩, hn⟩
  intro k' p
  by_cases e : same k' k = true
  · simp only [e, if_true]
    constructor
    · simp
    · rintro ⟨hp, hs⟩
      have := h.trans _ _ _ (h.symm _ _ e) hs
      rw [hn p hp] at this; exact absurd this (by simp)
  · simp only [e, if_false, hl'.get, List.mem_cons, Bool.false_eq_true]
    constructor
    · rintro ⟨rfl | hp, hs⟩
      · exact absurd (h.trans _ _ _ hs (h.symm _ _ hk)) e
      · exact ⟨hp, hs⟩
    · rintro ⟨hp, hs⟩; exact ⟨.inr hp, hs⟩

theorem Lists.replace (h : Keys same hash) {A B : List (K × V)} {m : FMap K V} {k k0 : K} {v0 : V} (v : V) (hl : Lists same (A ++ (k0, v0) :: B) m)
    (hk : same k k0 = true) : Lists same (A ++ (k, v) :: B) (fun k' => if same k' k then some (k, v) else m k') := by
  obtain ⟨_, h2, h3⟩ := hl.del h hk
  have := (h2.add h v h3).perm h (l' := A ++ (k, v) :: B) List.perm_middle
  refine ⟨this.once, fun k' p => ?_⟩
  rw [← this.get]
  by_cases e : same k' k = true <;> simp [e]

/-- keep the items that satisfy `p` -/
theorem Lists.filter {l : List (K × V)} {m : FMap K V} (hl : Lists same l m) (p : K × V → Bool) :
    Lists same (l.filter p) (fun k => (m k).filter p) := by
  refine ⟨hl.once.filter _, fun k q => ?_⟩
  rw [Option.filter_eq_some_iff, hl.get, List.mem_filter]
  tauto

/-! ### arrays -/

theorem mkArray_ok {n : Nat} (x : W) (h : n ≤ maxLen) : mkArray n x = .ok (List.replicate n x) := by
  unfold mkArray; rw [if_neg (by omega)]

theorem asub_ok {a : List W} {i : Nat} (h : i < a.length) : asub a i = .ok a[i] := by
  unfold asub; rw [List.getElem?_eq_getElem h]

theorem aupd_ok {a : List W} {i : Nat} (x : W) (h : i < a.length) : aupd a i x = .ok (a.set i x) := by
  unfold aupd; rw [if_pos h]

theorem index_eq (h : BitVec 63) {k : Nat} (hk : k ≤ 62) : index h (2 ^ k) = h.toNat % 2 ^ k := by
  unfold index
  rw [BitVec.toNat_and, BitVec.toNat_ofNat]
  have h1 : 2 ^ k ≤ 2 ^ 62 := Nat.pow_le_pow_right (by omega) hk
  have h2 : 2 ^ k - 1 < 2 ^ 63 := by omega
  rw [Nat.mod_eq_of_lt h2, Nat.and_two_pow_sub_one_eq_mod]

theorem index_lt (h : BitVec 63) {k : Nat} (hk : k ≤ 62) : index h (2 ^ k) < 2 ^ k := by
  rw [index_eq h hk]; exact Nat.mod_lt _ (Nat.two_pow_pos k)

/-- the entries are where they belong -/
def Placed (hash : K → BitVec 63) (sz : Nat) (arr : List (List (Ent K V))) : Prop :=
  ∀ i (hi : i < arr.length), ∀ e ∈ arr[i], e.h = hash e.key ∧ index e.h sz = i

def items (arr : List (List (Ent K V))) : List (K × V) := arr.flatten.map (fun e => (e.key, e.data))

/-- the table holds the map -/
structure Rel (same : K → K → Bool) (hash : K → BitVec 63) (t : Tbl K V) (m : FMap K V) : Prop where
  size : ∃ k, k ≤ 53 ∧ t.table.length = 2 ^ k
  placed : Placed hash t.table.length t.table
  lists : Lists same (items t.table) m
  count : t.n = (items t.table).length

theorem set_split {arr : List W} {i : Nat} (hi : i < arr.length) : ∃ A B, arr = A ++ arr[i] :: B ∧ A.length = i ∧ ∀ x, arr.set i x = A ++ x :: B := by
  refine ⟨arr.take i, arr.drop (i + 1), ?_, by simp; omega, ?_⟩
  · simp
  · intro x; rw [List.set_eq_take_append_cons_drop, if_pos hi]

theorem placed_set {sz : Nat} {arr : List (List (Ent K V))} (hp : Placed hash sz arr) {i : Nat} (hi : i < arr.length) {b : List (Ent K V)}
    (hb : ∀ e ∈ b, e.h = hash e.key ∧ index e.h sz = i) : Placed hash sz (arr.set i b) := by
  intro j hj e he
  rw [List.getElem_set] at he
  split at he
  · rename_i e'; subst e'; exact hb e he
  · exact hp j (by simpa using hj) e he

/-- entries outside the bucket of a key have other keys -/
theorem other (hk : Keys same hash) {sz : Nat} {arr A B : List (List (Ent K V))} {b : List (Ent K V)} (hp : Placed hash sz arr) (e : arr = A ++ b :: B) {key : K}
    (hA : A.length = index (hash key) sz) : ∀ x ∈ A.flatten ++ B.flatten, same key x.key = false := by
  intro x hx
  have key' : ∀ j (hj : j < arr.length), x ∈ arr[j] → j ≠ index (hash key) sz → same key x.key = false := by
    intro j hj hxj hne
    cases e' : same key x.key with
    | false => rfl
    | true =>
      have := hp j hj x hxj
      rw [this.1, ← hk.hash _ _ e'] at this
      exact absurd this.2.symm hne
  rcases List.mem_append.mp hx with hx | hx
  · obtain ⟨l, hl, hxl⟩ := List.mem_flatten.mp hx
    obtain ⟨j, hj, ej⟩ := List.getElem_of_mem hl
    refine key' j (by rw [e]; simp; omega) ?_ (by omega)
    have : arr[j]'(by rw [e]; simp; omega) = A[j] := by
      simp only [e]; rw [List.getElem_append_left]
    rw [this, ej]; exact hxl
  · obtain ⟨l, hl, hxl⟩ := List.mem_flatten.mp hx
    obtain ⟨j, hj, ej⟩ := List.getElem_of_mem hl
    refine key' (A.length + (j + 1)) (by rw [e]; simp; omega) ?_ (by omega)
    have : arr[A.length + (j + 1)]'(by rw [e]; simp; omega) = B[j] := by
      simp only [e]
      rw [List.getElem_append_right (by omega)]
      simp
    rw [this, ej]; exact hxl

/-! ### buckets -/

theorem look_none {hv : BitVec 63} {key : K} {b : List (Ent K V)} (h : look same hv key b = none) : ∀ e ∈ b, ¬ (hv = e.h ∧ same key e.key = true) := by
  induction b with
  | nil => simp
  | cons e r ih =>
    simp only [look] at h
    split at h
    · cases h
    · rename_i c
      intro x hx
      rcases List.mem_cons.mp hx with rfl | hx
      · exact c
      · exact ih h x hx

theorem look_some {hv : BitVec 63} {key : K} {v : V} {b : List (Ent K V)} (h : look same hv key b = some v) :
    ∃ P k Q, b = P ++ ⟨hv, k, v⟩ :: Q ∧ same key k = true := by
  induction b with
  | nil => simp [look] at h
  | cons e r ih =>
    simp only [look] at h
    split at h
    · rename_i c
      simp only [Option.some.injEq] at h
      refine ⟨[], e.key, r, ?_, c.2⟩
      rw [c.1, ← h]; rfl
    · obtain ⟨P, k, Q, e1, e2⟩ := ih h
      exact ⟨e :: P, k, Q, by rw [e1]; rfl, e2⟩

theorem lookIns_spec (hv : BitVec 63) (key : K) (item : V) (b : List (Ent K V)) :
    (lookIns same hv key item b = [] ∧ ∀ e ∈ b, ¬ (hv = e.h ∧ same key e.key = true)) ∨
    ∃ P k v Q, b = P ++ ⟨hv, k, v⟩ :: Q ∧ same key k = true ∧ lookIns same hv key item b = P ++ ⟨hv, key, item⟩ :: Q := by
  induction b with
  | nil => left; simp [lookIns]
  | cons e r ih =>
    by_cases c : hv = e.h ∧ same key e.key = true
    · right
      refine ⟨[], e.key, e.data, r, by rw [c.1]; rfl, c.2, ?_⟩
      simp only [lookIns, if_pos c]; rfl
    · rcases ih with ⟨h1, h2⟩ | ⟨P, k, v, Q, h1, h2, h3⟩
      · left
        refine ⟨by simp only [lookIns, if_neg c, h1], ?_⟩
        intro x hx
        rcases List.mem_cons.mp hx with rfl | hx
        · exact c
        · exact h2 x hx
      · right
        refine ⟨e :: P, k, v, Q, by rw [h1]; rfl, h2, ?_⟩
        simp only [lookIns, if_neg c, h3]
        cases P <;> rfl

theorem lookRm_spec (hv : BitVec 63) (key : K) (b : List (Ent K V)) :
    (lookRm same hv key b = .error .not_found ∧ ∀ e ∈ b, ¬ (hv = e.h ∧ same key e.key = true)) ∨
    ∃ P k v Q, b = P ++ ⟨hv, k, v⟩ :: Q ∧ same key k = true ∧ lookRm same hv key b = .ok (v, P ++ Q) := by
  induction b with
  | nil => left; simp [lookRm]
  | cons e r ih =>
    by_cases c : hv = e.h ∧ same key e.key = true
    · right
      refine ⟨[], e.key, e.data, r, by rw [c.1]; rfl, c.2, ?_⟩
      simp only [lookRm, if_pos c]; rfl
    · rcases ih with ⟨h1, h2⟩ | ⟨P, k, v, Q, h1, h2, h3⟩
      · left
        refine ⟨by simp only [lookRm, if_neg c, h1]; rfl, ?_⟩
        intro x hx
        rcases List.mem_cons.mp hx with rfl | hx
        · exact c
        · exact h2 x hx
      · right
        refine ⟨e :: P, k, v, Q, by rw [h1]; rfl, h2, ?_⟩
        simp only [lookRm, if_neg c, h3]; rfl

/-- where the bucket of a key is, and what its neighbours hold -/
theorem Rel.bucket (hk : Keys same hash) {t : Tbl K V} {m : FMap K V} (r : Rel same hash t m) (key : K) :
    ∃ A b B, t.table = A ++ b :: B ∧ asub t.table (index (hash key) t.table.length) = .ok b ∧
      (∀ x, aupd t.table (index (hash key) t.table.length) x = .ok (A ++ x :: B)) ∧
      (∀ x ∈ A.flatten ++ B.flatten, same key x.key = false) ∧
      (∀ e ∈ b, e.h = hash e.key ∧ index e.h t.table.length = index (hash key) t.table.length) ∧
      (∀ x : List (Ent K V), (∀ e ∈ x, e.h = hash e.key ∧ index e.h t.table.length = index (hash key) t.table.length) →
        Placed hash t.table.length (A ++ x :: B)) := by
  obtain ⟨k, hk1, hk2⟩ := r.size
  have hi : index (hash key) t.table.length < t.table.length := by rw [hk2]; exact index_lt _ (by omega)
  obtain ⟨A, B, e1, e2, e3⟩ := set_split hi
  refine ⟨A, t.table[index (hash key) t.table.length], B, e1, asub_ok hi, fun x => by rw [aupd_ok x hi, e3], other hk r.placed e1 e2, r.placed _ hi, ?_⟩
  intro x hx
  rw [← e3]
  exact placed_set r.placed hi hx

theorem items_mid (A B : List (List (Ent K V))) (b : List (Ent K V)) :
    items (A ++ b :: B) = A.flatten.map (fun e => (e.key, e.data)) ++ b.map (fun e => (e.key, e.data)) ++ B.flatten.map (fun e => (e.key, e.data)) := by
  simp [items]

/-- no entry of the table has the key if its bucket does not -/
theorem absent {A B : List (List (Ent K V))} {b : List (Ent K V)} {key : K} (hk : Keys same hash) (ho : ∀ x ∈ A.flatten ++ B.flatten, same key x.key = false)
    (hb : ∀ e ∈ b, e.h = hash e.key) (hn : ∀ e ∈ b, ¬ (hash key = e.h ∧ same key e.key = true)) : ∀ p ∈ items (A ++ b :: B), same key p.1 = false := by
  intro p hp
  rw [items_mid] at hp
  simp only [List.mem_append, List.mem_map] at hp
  rcases hp with (⟨e, he, rfl⟩ | ⟨e, he, rfl⟩) | ⟨e, he, rfl⟩
  · exact ho e (List.mem_append_left _ he)
  · cases c : same key e.key with
    | false => rfl
    | true => exact absurd ⟨by rw [hb e he]; exact hk.hash _ _ c, c⟩ (hn e he)
  · exact ho e (List.mem_append_right _ he)

theorem Rel.peek (hk : Keys same hash) {t : Tbl K V} {m : FMap K V} (r : Rel same hash t m) (key : K) :
    peek hash same t key = .ok ((m key).map Prod.snd) := by
  obtain ⟨A, b, B, e, hs, _, ho, hb, _⟩ := r.bucket hk key
  have hl := r.lists
  rw [e] at hl
  unfold Polyhash.peek
  rw [hs]
  show Except.ok _ = _
  congr 1
  cases c : look same (hash key) key b with
  | none => rw [hl.absent (absent hk ho (fun e he => (hb e he).1) (look_none c))]; rfl
  | some v =>
    obtain ⟨P, k, Q, e1, e2⟩ := look_some c
    rw [e1, items_mid] at hl
    have : m key = some (k, v) := (hl.get key (k, v)).mpr ⟨by simp, e2⟩
    rw [this]; rfl

theorem Rel.find (hk : Keys same hash) {t : Tbl K V} {m : FMap K V} (r : Rel same hash t m) (key : K) :
    find hash same t key = match m key with
      | some p => .ok p.2
      | none => .error .not_found := by
  have := r.peek hk key
  unfold Polyhash.peek at this
  unfold Polyhash.find
  cases hs : asub t.table (index (hash key) t.table.length) with
  | error x => rw [hs] at this; cases this
  | ok b =>
    rw [hs] at this
    have h2 : look same (hash key) key b = (m key).map Prod.snd := by
      have h3 : Except.ok (ε := Exn) (look same (hash key) key b) = Except.ok ((m key).map Prod.snd) := this
      injection h3
    show (match look same (hash key) key b with | some v => Except.ok v | none => Except.error Exn.not_found) = _
    rw [h2]
    cases m key <;> rfl

/-! ### growing -/

theorem copyB_spec {k : Nat} (hk : k ≤ 54) (b : List (Ent K V)) : ∀ (arr : List (List (Ent K V))), arr.length = 2 ^ k → Placed hash (2 ^ k) arr →
    (∀ e ∈ b, e.h = hash e.key) →
    ∃ arr', copyB (2 ^ k) b arr = (arr', true) ∧ arr'.length = 2 ^ k ∧ Placed hash (2 ^ k) arr' ∧ arr'.flatten.Perm (b ++ arr.flatten) := by
  induction b with
  | nil => intro arr hl hp _; exact ⟨arr, rfl, hl, hp, .refl _⟩
  | cons e r ih =>
    intro arr hl hp hb
    have hi : index e.h (2 ^ k) < arr.length := by rw [hl]; exact index_lt _ (by omega)
    obtain ⟨A, B, e1, e2, e3⟩ := set_split hi
    have hp' : Placed hash (2 ^ k) (arr.set (index e.h (2 ^ k)) (e :: arr[index e.h (2 ^ k)])) := by
      refine placed_set hp hi ?_
      intro x hx
      rcases List.mem_cons.mp hx with rfl | hx
      · exact ⟨hb x (by simp), rfl⟩
      · exact hp _ hi x hx
    obtain ⟨arr', h1, h2, h3, h4⟩ := ih _ (by rw [List.length_set]; exact hl) hp' (fun x hx => hb x (by simp [hx]))
    refine ⟨arr', ?_, h2, h3, h4.trans ?_⟩
    · simp only [copyB, asub_ok hi, aupd_ok _ hi]
      exact h1
    · rw [e3]
      conv_rhs => rw [e1]
      simp only [List.flatten_append, List.flatten_cons, List.cons_append]
      exact (List.perm_middle.append_left r).trans List.perm_middle

theorem bucketLoop_spec {k : Nat} (hk : k ≤ 54) (arr : List (List (Ent K V))) (ha : ∀ b ∈ arr, ∀ e ∈ b, e.h = hash e.key) (j : Nat) :
    ∀ (n : Nat) (newArr : List (List (Ent K V))), arr.length - n = j → newArr.length = 2 ^ k → Placed hash (2 ^ k) newArr →
    ∃ arr', bucketLoop none (2 ^ k) arr n newArr = arr' ∧ arr'.length = 2 ^ k ∧ Placed hash (2 ^ k) arr' ∧
      arr'.flatten.Perm ((arr.drop n).flatten ++ newArr.flatten) := by
  induction j with
  | zero =>
    intro n newArr hj hl hp
    refine ⟨newArr, ?_, hl, hp, ?_⟩
    · unfold bucketLoop; simp; omega
    · rw [List.drop_eq_nil_of_le (by omega)]; simp
  | succ j ih =>
    intro n newArr hj hl hp
    have hn : n < arr.length := by omega
    obtain ⟨a1, h1, h2, h3, h4⟩ := copyB_spec hk arr[n] newArr hl hp (ha _ (List.getElem_mem hn))
    obtain ⟨a2, g1, g2, g3, g4⟩ := ih (n + 1) a1 (by omega) h2 h3
    refine ⟨a2, ?_, g2, g3, g4.trans ?_⟩
    · unfold bucketLoop
      simp only [reduceCtorEq, if_false, dif_pos hn, h1]
      exact g1
    · rw [List.drop_eq_getElem_cons hn, List.flatten_cons]
      refine (h4.append_left _).trans ?_
      rw [← List.append_assoc]
      exact List.perm_append_comm.append_right _

theorem items_perm {a b : List (List (Ent K V))} (h : a.flatten.Perm b.flatten) : (items a).Perm (items b) := h.map _

theorem grow_spec (hk : Keys same hash) {t : Tbl K V} {m : FMap K V} (r : Rel same hash t m) (hn : t.n < 2 ^ 53) :
    ∃ t', growTable none t = .ok t' ∧ t'.n = t.n ∧ Rel same hash t' m := by
  obtain ⟨k, hk1, hk2⟩ := r.size
  unfold growTable
  dsimp only
  by_cases c : t.n ≥ t.table.length
  · rw [if_pos c]
    have hlt : (2 : Int) ^ k < 2 ^ 53 := by rw [hk2] at c; push_cast at c; omega
    have hk53 : k < 53 := by
      by_contra hc
      have : k = 53 := by omega
      rw [this] at hlt; omega
    have e2 : t.table.length + t.table.length = 2 ^ (k + 1) := by rw [hk2, Nat.pow_succ]; omega
    have le : 2 ^ (k + 1) ≤ 2 ^ 53 := Nat.pow_le_pow_right (by omega) (by omega)
    rw [e2, mkArray_ok _ (by unfold maxLen; omega)]
    have rf : (List.replicate (2 ^ (k + 1)) ([] : List (Ent K V))).flatten = [] := by
      rw [List.flatten_replicate_nil]
    obtain ⟨a, h1, h2, h3, h4⟩ := bucketLoop_spec (hash := hash) (k := k + 1) (by omega) t.table (fun b hb e he => by
      obtain ⟨i, hi, rfl⟩ := List.getElem_of_mem hb
      exact (r.placed i hi e he).1) _ 0 (List.replicate (2 ^ (k + 1)) []) rfl (by simp) (fun i hi e he => by simp at he)
    have h4' : a.flatten.Perm t.table.flatten := by simpa [rf] using h4
    refine ⟨⟨a, t.n⟩, ?_, rfl, ⟨k + 1, by omega, h2⟩, by simpa [h2] using h3, r.lists.perm hk (items_perm h4'), ?_⟩
    · show Except.ok _ = _
      rw [h1]
    · rw [(items_perm h4').length_eq]; exact r.count
  · rw [if_neg c]; exact ⟨t, rfl, rfl, r⟩

/-! ### operations -/

/-- the map with `key` associated to `item` -/
def FMap.insert (same : K → K → Bool) (m : FMap K V) (key : K) (item : V) : FMap K V := fun k => if same k key then some (key, item) else m k
def FMap.remove (same : K → K → Bool) (m : FMap K V) (key : K) : FMap K V := fun k => if same k key then none else m k
def FMap.filter (m : FMap K V) (p : K × V → Bool) : FMap K V := fun k => (m k).filter p
def FMap.empty : FMap K V := fun _ => none

theorem addNew_spec (hk : Keys same hash) {t : Tbl K V} {m : FMap K V} (r : Rel same hash t m) (key : K) (item : V) (hn : t.n + 1 < 2 ^ 53)
    (h0 : ∀ p ∈ items t.table, same key p.1 = false) :
    ∃ t', addNew none t (index (hash key) t.table.length) ⟨hash key, key, item⟩ = .ok t' ∧ t'.n = t.n + 1 ∧ Rel same hash t' (m.insert same key item) := by
  obtain ⟨A, b, B, e, hs, hu, ho, hb, hp⟩ := r.bucket hk key
  have hperm : (items (A ++ (⟨hash key, key, item⟩ :: b) :: B)).Perm ((key, item) :: items t.table) := by
    rw [e, items_mid, items_mid]
    simp only [List.map_cons, List.append_assoc, List.cons_append]
    exact List.perm_middle
  have len : (A ++ (⟨hash key, key, item⟩ :: b) :: B).length = t.table.length := by rw [e]; simp
  obtain ⟨t', g1, g2, g3⟩ := grow_spec (same := same) (hash := hash) hk (t := ⟨A ++ (⟨hash key, key, item⟩ :: b) :: B, t.n + 1⟩) (m := m.insert same key item)
    ⟨by rw [len]; exact r.size, by
      rw [len]
      refine hp _ ?_
      intro x hx
      rcases List.mem_cons.mp hx with rfl | hx
      · exact ⟨rfl, rfl⟩
      · exact hb x hx, (r.lists.add hk item h0).perm hk hperm, by rw [hperm.length_eq, r.count]; simp⟩ hn
  refine ⟨t', ?_, g2, g3⟩
  unfold addNew
  rw [hs]
  show (aupd t.table _ _).bind _ = _
  rw [hu]
  exact g1

theorem Rel.insert (hk : Keys same hash) {t : Tbl K V} {m : FMap K V} (r : Rel same hash t m) (key : K) (item : V) (hn : t.n + 1 < 2 ^ 53) :
    ∃ t', insert hash same none t key item = .ok t' ∧ t'.n ≤ t.n + 1 ∧ Rel same hash t' (m.insert same key item) := by
  obtain ⟨A, b, B, e, hs, hu, ho, hb, hp⟩ := r.bucket hk key
  unfold Polyhash.insert
  dsimp only
  rw [hs]
  show ∃ t', (match lookIns same (hash key) key item b with
    | [] => addNew none t (index (hash key) t.table.length) ⟨hash key, key, item⟩
    | b => (aupd t.table (index (hash key) t.table.length) b).bind fun a => Except.ok { t with table := a }) = .ok t' ∧ _
  rcases lookIns_spec (same := same) (hash key) key item b with ⟨h1, h2⟩ | ⟨P, k, v, Q, h1, h2, h3⟩
  · rw [h1]
    obtain ⟨t', g1, g2, g3⟩ := addNew_spec hk r key item hn (by rw [e]; exact absent hk ho (fun e he => (hb e he).1) h2)
    exact ⟨t', g1, by omega, g3⟩
  · rw [h3]
    have len : (A ++ (P ++ ⟨hash key, key, item⟩ :: Q) :: B).length = t.table.length := by rw [e]; simp
    refine ⟨⟨A ++ (P ++ ⟨hash key, key, item⟩ :: Q) :: B, t.n⟩, ?_, by simp, ⟨by rw [len]; exact r.size, ?_, ?_, ?_⟩⟩
    · cases P <;> (show (aupd t.table _ _).bind _ = _; rw [hu]; rfl)
    · rw [len]
      refine hp _ ?_
      intro x hx
      simp only [List.mem_append, List.mem_cons] at hx
      rcases hx with hx | rfl | hx
      · exact hb x (by rw [h1]; simp [hx])
      · exact ⟨rfl, rfl⟩
      · exact hb x (by rw [h1]; simp [hx])
    · have hl := r.lists
      rw [e, h1, items_mid] at hl
      have := Lists.replace hk (A := A.flatten.map (fun e => (e.key, e.data)) ++ P.map (fun e => (e.key, e.data)))
        (B := Q.map (fun e => (e.key, e.data)) ++ B.flatten.map (fun e => (e.key, e.data))) (k0 := k) (v0 := v) (m := m) (k := key) item (by simpa using hl) h2
      rw [items_mid]
      show Lists same _ (fun k' => if same k' key then some (key, item) else m k')
      simpa using this
    · rw [r.count, e, h1, items_mid, items_mid]; simp

theorem Rel.peekInsert (hk : Keys same hash) {t : Tbl K V} {m : FMap K V} (r : Rel same hash t m) (key : K) (item : V) (hn : t.n + 1 < 2 ^ 53) :
    ∃ t', peekInsert hash same none t key item = .ok ((m key).map Prod.snd, t') ∧ t'.n ≤ t.n + 1 ∧
      Rel same hash t' (if (m key).isSome then m else m.insert same key item) := by
  have hpk := r.peek hk key
  obtain ⟨A, b, B, e, hs, hu, ho, hb, hp⟩ := r.bucket hk key
  unfold Polyhash.peek at hpk
  unfold Polyhash.peekInsert
  dsimp only
  rw [hs] at hpk ⊢
  have h2 : look same (hash key) key b = (m key).map Prod.snd := by
    have h3 : Except.ok (ε := Exn) (look same (hash key) key b) = Except.ok ((m key).map Prod.snd) := hpk
    injection h3
  simp only [bind, Except.bind]
  cases c : m key with
  | some p =>
    rw [c] at h2; rw [h2]
    simp only [Option.map_some]
    exact ⟨t, rfl, by omega, by simpa using r⟩
  | none =>
    rw [c] at h2
    obtain ⟨t', g1, g2, g3⟩ := addNew_spec hk r key item hn (by rw [e]; exact absent hk ho (fun e he => (hb e he).1) (look_none h2))
    rw [h2]
    refine ⟨t', ?_, by omega, by simpa using g3⟩
    simp only [Option.map_none, g1]

theorem Rel.remove (hk : Keys same hash) {t : Tbl K V} {m : FMap K V} (r : Rel same hash t m) (key : K) :
    match m key with
    | some p => ∃ t', remove hash same t key = .ok (p.2, t') ∧ t'.n = t.n - 1 ∧ Rel same hash t' (m.remove same key)
    | none => remove hash same t key = .error .not_found := by
  obtain ⟨A, b, B, e, hs, hu, ho, hb, hp⟩ := r.bucket hk key
  have hl := r.lists
  have red : ∀ x, lookRm same (hash key) key b = x → Polyhash.remove hash same t key =
      (x.bind fun p => (aupd t.table (index (hash key) t.table.length) p.2).bind fun a => Except.ok (p.1, ⟨a, t.n - 1⟩)) := by
    intro x hx
    unfold Polyhash.remove
    dsimp only
    rw [hs]
    show (lookRm same (hash key) key b).bind _ = _
    rw [hx]; rfl
  rcases lookRm_spec (same := same) (hash key) key b with ⟨h1, h2⟩ | ⟨P, k, v, Q, h1, h2, h3⟩
  · rw [e] at hl
    rw [hl.absent (absent hk ho (fun e he => (hb e he).1) h2), red _ h1]; rfl
  · rw [e, h1, items_mid] at hl
    obtain ⟨d1, d2, _⟩ := Lists.del hk (A := A.flatten.map (fun e => (e.key, e.data)) ++ P.map (fun e => (e.key, e.data)))
        (B := Q.map (fun e => (e.key, e.data)) ++ B.flatten.map (fun e => (e.key, e.data))) (k0 := k) (v0 := v) (m := m) (k := key) (by simpa using hl) h2
    rw [d1]
    have len : (A ++ (P ++ Q) :: B).length = t.table.length := by rw [e]; simp
    refine ⟨⟨A ++ (P ++ Q) :: B, t.n - 1⟩, ?_, rfl, ⟨by rw [len]; exact r.size, ?_, ?_, ?_⟩⟩
    · rw [red _ h3]
      show (aupd t.table _ _).bind _ = _
      rw [hu]; rfl
    · rw [len]
      refine hp _ ?_
      intro x hx
      simp only [List.mem_append] at hx
      rcases hx with hx | hx <;> exact hb x (by rw [h1]; simp [hx])
    · rw [items_mid]
      show Lists same _ (fun k' => if same k' key then none else m k')
      simpa using d2
    · rw [r.count, e, h1, items_mid, items_mid]; simp; omega

theorem filterP_spec (p : K × V → Bool) (b : List (Ent K V)) : ∀ n, filterP (fun x => some (p x)) b n =
    (some (b.filter (fun e => p (e.key, e.data))), n - b.length + (b.filter (fun e => p (e.key, e.data))).length) := by
  induction b with
  | nil => intro n; simp [filterP]
  | cons e r ih =>
    intro n
    simp only [filterP]
    cases c : p (e.key, e.data) with
    | true => simp [ih, c]; omega
    | false => simp [ih, c]; omega

theorem filterTbl_spec (p : K × V → Bool) (fuel : Nat) : ∀ (A B : List (List (Ent K V))) (n : Int), fuel = B.length →
    filterTbl (fun x => some (p x)) ⟨A ++ B, n⟩ A.length fuel =
      (⟨A ++ B.map (fun b => b.filter (fun e => p (e.key, e.data))), n - B.flatten.length + (B.map (fun b => b.filter (fun e => p (e.key, e.data)))).flatten.length⟩, true) := by
  induction fuel with
  | zero =>
    intro A B n h
    have : B = [] := List.length_eq_zero_iff.mp h.symm
    subst this; simp [filterTbl]
  | succ fuel ih =>
    intro A B n h
    cases B with
    | nil => simp at h
    | cons b B =>
      unfold filterTbl
      have e1 : (A ++ b :: B)[A.length]? = some b := by simp
      simp only [e1, filterP_spec]
      have e2 : (A ++ b :: B).set A.length (b.filter (fun e => p (e.key, e.data))) = (A ++ [b.filter (fun e => p (e.key, e.data))]) ++ B := by simp
      rw [e2]
      have e3 : A.length + 1 = (A ++ [b.filter (fun e => p (e.key, e.data))]).length := by simp
      rw [e3, ih _ _ _ (by simpa using h)]
      simp
      omega

theorem Rel.filter {t : Tbl K V} {m : FMap K V} (r : Rel same hash t m) (p : K × V → Bool) :
    ∃ t', filter (fun x => some (p x)) t = (t', true) ∧ t'.n ≤ t.n ∧ Rel same hash t' (m.filter p) := by
  have h := filterTbl_spec p t.table.length [] t.table t.n rfl
  simp only [List.nil_append, List.length_nil] at h
  have hit : items (t.table.map (fun b => b.filter (fun e => p (e.key, e.data)))) = (items t.table).filter p := by
    unfold items
    rw [← List.filter_flatten, List.filter_map]; rfl
  refine ⟨_, h, ?_, ?_, ?_, ?_, ?_⟩
  · have : (List.map (fun b => List.filter (fun e => p (e.key, e.data)) b) t.table).flatten.length ≤ t.table.flatten.length := by
      rw [← List.filter_flatten]; exact List.length_filter_le _ _
    dsimp only; omega
  · simpa using r.size
  · intro i hi e he
    simp only [List.length_map, List.getElem_map, List.mem_filter] at hi he ⊢
    exact r.placed i hi e he.1
  · rw [hit]; exact r.lists.filter p
  · have h1 := r.count
    have h2 : (items t.table).length = t.table.flatten.length := List.length_map _
    have h3 : (items (t.table.map (fun b => b.filter (fun e => p (e.key, e.data))))).length = (t.table.map (fun b => b.filter (fun e => p (e.key, e.data)))).flatten.length := List.length_map _
    rw [h3]
    dsimp only; omega

theorem itemsG_spec (b : List (Ent K V)) : ∀ l n, itemsG b l n = ((b.map (fun e => (e.key, e.data))).reverse ++ l, n - b.length) := by
  induction b with
  | nil => intro l n; simp [itemsG]
  | cons e r ih => intro l n; simp [itemsG, ih]; omega

theorem itemsF_spec (arr : List (List (Ent K V))) (i : Nat) : ∀ l, i ≤ arr.length →
    ∃ l', itemsF arr i l ((arr.take i).flatten.length) = .ok l' ∧ l'.Perm (items (arr.take i) ++ l) := by
  induction i with
  | zero => intro l _; exact ⟨l, by simp [itemsF], by simp [items]⟩
  | succ i ih =>
    intro l hi
    unfold itemsF
    have et : arr.take (i + 1) = arr.take i ++ [arr[i]] := by rw [List.take_add_one, List.getElem?_eq_getElem (by omega)]; rfl
    by_cases c : (((arr.take (i + 1)).flatten.length : Nat) : Int) = 0
    · rw [if_pos c]
      have : (arr.take (i + 1)).flatten = [] := List.length_eq_zero_iff.mp (by omega)
      refine ⟨l, rfl, ?_⟩
      unfold items; rw [this]; simp
    · rw [if_neg c, asub_ok (show i < arr.length by omega)]
      obtain ⟨l', h1, h2⟩ := ih ((arr[i].map (fun e => (e.key, e.data))).reverse ++ l) (by omega)
      refine ⟨l', ?_, h2.trans ?_⟩
      · show itemsF arr i (itemsG arr[i] l _).1 (itemsG arr[i] l _).2 = _
        rw [itemsG_spec]
        dsimp only
        rw [← h1]
        congr 1
        rw [et, List.flatten_append, List.length_append, List.flatten_singleton]; push_cast; omega
      · have : items (arr.take (i + 1)) = items (arr.take i) ++ arr[i].map (fun e => (e.key, e.data)) := by
          rw [et]; unfold items; rw [List.flatten_append, List.map_append, List.flatten_singleton]
        rw [this, List.append_assoc]
        exact ((List.reverse_perm _).append_right l).append_left _

theorem Rel.listItems (hk : Keys same hash) {t : Tbl K V} {m : FMap K V} (r : Rel same hash t m) : ∃ l, listItems t = .ok l ∧ Lists same l m := by
  obtain ⟨l, h1, h2⟩ := itemsF_spec t.table t.table.length [] (by omega)
  rw [List.take_length] at h1 h2
  refine ⟨l, ?_, r.lists.perm hk (by simpa using h2)⟩
  unfold Polyhash.listItems
  rw [← h1, r.count]
  unfold items; rw [List.length_map]

/-! ### the property -/

inductive Op (K V : Type) where
  | insert (key : K) (item : V)
  | peekInsert (key : K) (item : V)
  | remove (key : K)
  | filter (p : K × V → Bool)
  | find (key : K)
  | peek (key : K)
  | numItems
  | listItems

inductive Out (K V : Type) where
  | unit
  | val (v : V)
  | opt (v : Option V)
  | num (n : Int)
  | items (l : List (K × V))
  | exn (e : Exn)

/-- one operation of the code; an operation that raises an exception leaves the table as it is -/
def step (hash : K → BitVec 63) (same : K → K → Bool) (t : Tbl K V) : Op K V → Tbl K V × Out K V
  | .insert k v => match insert hash same none t k v with
    | .ok t => (t, .unit)
    | .error e => (t, .exn e)
  | .peekInsert k v => match peekInsert hash same none t k v with
    | .ok (o, t) => (t, .opt o)
    | .error e => (t, .exn e)
  | .remove k => match remove hash same t k with
    | .ok (v, t) => (t, .val v)
    | .error e => (t, .exn e)
  | .filter p => match filter (fun x => some (p x)) t with
    | (t, true) => (t, .unit)
    | (t, false) => (t, .exn .diverge)
  | .find k => match find hash same t k with
    | .ok v => (t, .val v)
    | .error e => (t, .exn e)
  | .peek k => match peek hash same t k with
    | .ok v => (t, .opt v)
    | .error e => (t, .exn e)
  | .numItems => (t, .num (numItems t))
  | .listItems => match listItems t with
    | .ok l => (t, .items l)
    | .error e => (t, .exn e)

def run (hash : K → BitVec 63) (same : K → K → Bool) (t : Tbl K V) : List (Op K V) → Tbl K V × List (Out K V)
  | [] => (t, [])
  | o :: os =>
    let r := step hash same t o
    let q := run hash same r.1 os
    (q.1, r.2 :: q.2)

/-- the map after an operation -/
def after (same : K → K → Bool) (m : FMap K V) : Op K V → FMap K V
  | .insert k v => m.insert same k v
  | .peekInsert k v => if (m k).isSome then m else m.insert same k v
  | .remove k => m.remove same k
  | .filter p => m.filter p
  | _ => m

/-- the results an operation may have -/
def Result (same : K → K → Bool) (m : FMap K V) : Op K V → Out K V → Prop
  | .insert _ _, o => o = .unit
  | .peekInsert k _, o => o = .opt ((m k).map Prod.snd)
  | .remove k, o => o = match m k with
    | some p => .val p.2
    | none => .exn .not_found
  | .filter _, o => o = .unit
  | .find k, o => o = match m k with
    | some p => .val p.2
    | none => .exn .not_found
  | .peek k, o => o = .opt ((m k).map Prod.snd)
  | .numItems, o => ∃ l, Lists same l m ∧ o = .num (l.length : Nat)
  | .listItems, o => ∃ l, Lists same l m ∧ o = .items l

/-- the results of a sequence of operations on a map -/
def Results (same : K → K → Bool) : FMap K V → List (Op K V) → List (Out K V) → Prop
  | _, [], os => os = []
  | m, o :: os, r :: rs => Result same m o r ∧ Results same (after same m o) os rs
  | _, _ :: _, [] => False

theorem remove_absent {t : Tbl K V} {m : FMap K V} (hk : Keys same hash) (r : Rel same hash t m) {k : K} (h : m k = none) : m.remove same k = m := by
  funext k'
  unfold FMap.remove
  by_cases e : same k' k = true
  · rw [if_pos e]
    symm
    refine r.lists.absent ?_
    intro p hp
    cases c : same k' p.1 with
    | false => rfl
    | true =>
      have := (r.lists.get k p).mpr ⟨hp, hk.trans _ _ _ (hk.symm _ _ e) c⟩
      rw [h] at this; cases this
  · rw [if_neg e]

theorem step_spec (hk : Keys same hash) {t : Tbl K V} {m : FMap K V} (r : Rel same hash t m) (hn : t.n + 1 < 2 ^ 53) (o : Op K V) :
    Result same m o (step hash same t o).2 ∧ Rel same hash (step hash same t o).1 (after same m o) ∧ (step hash same t o).1.n ≤ t.n + 1 := by
  cases o with
  | insert k v =>
    obtain ⟨t', h1, h2, h3⟩ := r.insert hk k v hn
    simp only [step, h1]; exact ⟨rfl, h3, h2⟩
  | peekInsert k v =>
    obtain ⟨t', h1, h2, h3⟩ := r.peekInsert hk k v hn
    simp only [step, h1]; exact ⟨rfl, h3, h2⟩
  | remove k =>
    have h := r.remove hk k
    cases c : m k with
    | none =>
      rw [c] at h
      dsimp only at h
      simp only [step, h, Result, c, after]
      exact ⟨trivial, by rw [remove_absent hk r c]; exact r, by omega⟩
    | some p =>
      rw [c] at h
      obtain ⟨t', h1, h2, h3⟩ := h
      simp only [step, h1, Result, c]
      exact ⟨trivial, h3, by omega⟩
  | filter p =>
    obtain ⟨t', h1, h2, h3⟩ := r.filter p
    simp only [step, h1]; exact ⟨rfl, h3, by omega⟩
  | find k =>
    have h := r.find hk k
    cases c : m k with
    | none =>
      rw [c] at h
      dsimp only at h
      simp only [step, h, Result, c]; exact ⟨trivial, r, by omega⟩
    | some p =>
      rw [c] at h
      dsimp only at h
      simp only [step, h, Result, c]; exact ⟨trivial, r, by omega⟩
  | peek k =>
    have h := r.peek hk k
    simp only [step, h]; exact ⟨rfl, r, by omega⟩
  | numItems => exact ⟨⟨_, r.lists, by simp [numItems, r.count, step]⟩, r, by simp [step]⟩
  | listItems =>
    obtain ⟨l, h1, h2⟩ := r.listItems hk
    simp only [step, h1]
    exact ⟨⟨l, h2, rfl⟩, r, by omega⟩

theorem run_spec (hk : Keys same hash) (os : List (Op K V)) : ∀ {t : Tbl K V} {m : FMap K V}, Rel same hash t m → t.n + os.length < 2 ^ 53 →
    Results same m os (run hash same t os).2 := by
  induction os with
  | nil => intro t m _ _; rfl
  | cons o os ih =>
    intro t m r hn
    simp only [List.length_cons] at hn
    obtain ⟨h1, h2, h3⟩ := step_spec hk r (by omega) o
    exact ⟨h1, ih h2 (by omega)⟩

theorem roundF_ok (n : Int) (fuel : Nat) : ∀ k, k ≤ 53 → n ≤ 2 ^ 53 → 53 < k + fuel →
    ∃ j, j ≤ 53 ∧ roundF n (BitVec.ofNat 63 (2 ^ k)) fuel = some (BitVec.ofNat 63 (2 ^ j)) := by
  induction fuel with
  | zero => intro k hk _ h; omega
  | succ fuel ih =>
    intro k hk hn h
    have lt : 2 ^ k ≤ 2 ^ 53 := Nat.pow_le_pow_right (by omega) hk
    have e1 : (BitVec.ofNat 63 (2 ^ k)).toInt = 2 ^ k := by
      rw [BitVec.toInt_eq_toNat_cond, BitVec.toNat_ofNat, Nat.mod_eq_of_lt (by omega), if_pos (by omega)]; push_cast; rfl
    unfold roundF
    rw [e1]
    by_cases c : (2 : Int) ^ k ≥ n
    · rw [if_pos c]; exact ⟨k, hk, rfl⟩
    · rw [if_neg c]
      have hk' : k < 53 := by
        by_contra hc
        have : k = 53 := by omega
        subst this; omega
      have e2 : BitVec.ofNat 63 (2 ^ k) <<< 1 = BitVec.ofNat 63 (2 ^ (k + 1)) := by
        apply BitVec.eq_of_toNat_eq
        rw [BitVec.toNat_shiftLeft, BitVec.toNat_ofNat, BitVec.toNat_ofNat, Nat.mod_eq_of_lt (show 2 ^ k < 2 ^ 63 by omega), Nat.shiftLeft_eq, Nat.pow_one, ← Nat.pow_succ]
      rw [e2]
      exact ih (k + 1) hk' hn (by omega)

theorem mkTable_rel (same : K → K → Bool) (hash : K → BitVec 63) (hint : Int) (hh : hint ≤ 2 ^ 53) :
    ∃ t : Tbl K V, mkTable hint = .ok t ∧ t.n = 0 ∧ Rel same hash t FMap.empty := by
  obtain ⟨j, h1, h2⟩ := roundF_ok hint 64 5 (by omega) hh (by omega)
  have lt : 2 ^ j ≤ 2 ^ 53 := Nat.pow_le_pow_right (by omega) h1
  have e : (BitVec.ofNat 63 (2 ^ j)).toNat = 2 ^ j := by rw [BitVec.toNat_ofNat, Nat.mod_eq_of_lt (by omega)]
  have e5 : roundUp hint 64 = some (BitVec.ofNat 63 (2 ^ j)) := h2
  refine ⟨⟨List.replicate (2 ^ j) [], 0⟩, ?_, rfl, ⟨j, h1, by simp⟩, ?_, ?_, ?_⟩
  · unfold mkTable
    rw [e5]
    dsimp only
    rw [e, mkArray_ok _ (by unfold maxLen; omega)]
    rfl
  · intro i hi e he; simp at he
  · have : items (List.replicate (2 ^ j) ([] : List (Ent K V))) = [] := by unfold items; rw [List.flatten_replicate_nil]; rfl
    rw [this]
    exact ⟨List.Pairwise.nil, by simp [FMap.empty]⟩
  · have : items (List.replicate (2 ^ j) ([] : List (Ent K V))) = [] := by unfold items; rw [List.flatten_replicate_nil]; rfl
    rw [this]; rfl

/-- C43: for every key equality and every hash function consistent with it, every size hint up to 2^53 and every sequence of fewer than
2^53 operations, a new table gives the results of a finite map. -/
theorem C43_table (hk : Keys same hash) (hint : Int) (hh : hint ≤ 2 ^ 53) (os : List (Op K V)) (hn : os.length < 2 ^ 53) :
    ∃ t, mkTable hint = .ok t ∧ Results same FMap.empty os (run hash same t os).2 := by
  obtain ⟨t, h1, h2, h3⟩ := mkTable_rel (V := V) same hash hint hh
  exact ⟨t, h1, run_spec hk os h3 (by omega)⟩

/-- every table reached by operations holds some map -/
theorem run_rel (hk : Keys same hash) (os : List (Op K V)) : ∀ {t : Tbl K V} {m : FMap K V}, Rel same hash t m → t.n + os.length < 2 ^ 53 →
    Rel same hash (run hash same t os).1 (os.foldl (after same) m) := by
  induction os with
  | nil => intro t m r _; exact r
  | cons o os ih =>
    intro t m r hn
    simp only [List.length_cons] at hn
    obtain ⟨h1, h2, h3⟩ := step_spec hk r (by omega) o
    exact ih h2 (by omega)

theorem mapF_spec (f : K × V → W) (b : List (Ent K V)) : mapF f b = b.map (fun e => ⟨e.h, e.key, f (e.key, e.data)⟩) := by
  induction b with
  | nil => rfl
  | cons e r ih => simp [mapF, ih]

theorem transF_spec (f : V → W) (b : List (Ent K V)) : transF f b = b.map (fun e => ⟨e.h, e.key, f e.data⟩) := by
  induction b with
  | nil => rfl
  | cons e r ih => simp [transF, ih]

theorem mapTbl_spec (g : List (Ent K V) → List (Ent K W)) (j : Nat) : ∀ (A B : List (List (Ent K V))) (C : List (List (Ent K W))), B.length = j → C.length = j →
    mapTbl g (A ++ B) A.length (A.map g ++ C) = .ok ((A ++ B).map g) := by
  induction j with
  | zero =>
    intro A B C hB hC
    have e1 : B = [] := List.length_eq_zero_iff.mp hB
    have e2 : C = [] := List.length_eq_zero_iff.mp hC
    subst e1 e2
    unfold mapTbl; simp
  | succ j ih =>
    intro A B C hB hC
    match B, C, hB, hC with
    | b :: B, c :: C, hB, hC =>
      unfold mapTbl
      rw [dif_pos (by simp), aupd_ok _ (by simp)]
      show mapTbl g _ _ _ = _
      have e1 : (A ++ b :: B)[A.length]'(by simp) = b := by simp
      rw [e1]
      have e2 : (A.map g ++ c :: C).set A.length (g b) = (A ++ [b]).map g ++ C := by
        rw [List.set_append_right _ _ (by simp)]; simp
      rw [e2]
      have := ih (A ++ [b]) B C (by simpa using hB) (by simpa using hC)
      simpa using this

theorem copyTbl_spec (j : Nat) : ∀ (A B C : List (List (Ent K V))), B.length = j → C.length = j → copyTbl none (A ++ B) A.length (A ++ C) = A ++ B := by
  induction j with
  | zero =>
    intro A B C hB hC
    have e1 : B = [] := List.length_eq_zero_iff.mp hB
    have e2 : C = [] := List.length_eq_zero_iff.mp hC
    subst e1 e2
    unfold copyTbl; simp
  | succ j ih =>
    intro A B C hB hC
    match B, C, hB, hC with
    | b :: B, c :: C, hB, hC =>
      unfold copyTbl
      rw [if_neg (by simp), dif_pos (by simp), aupd_ok _ (by simp)]
      dsimp only
      have e1 : (A ++ b :: B)[A.length]'(by simp) = b := by simp
      rw [e1]
      have e2 : (A ++ c :: C).set A.length b = (A ++ [b]) ++ C := by
        rw [List.set_append_right _ _ (by simp)]; simp
      rw [e2]
      have := ih (A ++ [b]) B C (by simpa using hB) (by simpa using hC)
      simpa using this

theorem Rel.len {t : Tbl K V} {m : FMap K V} (r : Rel same hash t m) : t.table.length ≤ maxLen := by
  obtain ⟨k, h1, h2⟩ := r.size
  have : 2 ^ k ≤ 2 ^ 53 := Nat.pow_le_pow_right (by omega) h1
  unfold maxLen; omega

theorem mapped_rel {t : Tbl K V} {m : FMap K V} (r : Rel same hash t m) (f : K × V → W) :
    Rel same hash ⟨t.table.map (fun b => b.map (fun e => ⟨e.h, e.key, f (e.key, e.data)⟩)), t.n⟩ (fun k => (m k).map (fun p => (p.1, f p))) := by
  have hit : items (t.table.map (fun b => b.map (fun e => (⟨e.h, e.key, f (e.key, e.data)⟩ : Ent K W)))) = (items t.table).map (fun p => (p.1, f p)) := by
    unfold items
    rw [← List.map_flatten, List.map_map, List.map_map]; rfl
  refine ⟨by simpa using r.size, ?_, ⟨?_, ?_⟩, ?_⟩
  · intro i hi e he
    simp only [List.length_map, List.getElem_map, List.mem_map] at hi he ⊢
    obtain ⟨e', he', rfl⟩ := he
    exact r.placed i hi e' he'
  · rw [hit, List.pairwise_map]; exact r.lists.once
  · intro k p
    simp only [hit, Option.map_eq_some_iff, r.lists.get, List.mem_map]
    constructor
    · rintro ⟨q, ⟨h1, h2⟩, rfl⟩; exact ⟨⟨q, h1, rfl⟩, h2⟩
    · rintro ⟨⟨q, h1, rfl⟩, h2⟩; exact ⟨q, ⟨h1, h2⟩, rfl⟩
  · rw [hit, List.length_map]; exact r.count

/-- C43: `map`, `transform` and `copy` of a table that holds `m` make tables that hold the mapped and the same map; they never fail. -/
theorem C43_map {t : Tbl K V} {m : FMap K V} (r : Rel same hash t m) :
    (∀ f : K × V → W, ∃ t', map f t = .ok t' ∧ Rel same hash t' (fun k => (m k).map (fun p => (p.1, f p)))) ∧
    (∀ f : V → W, ∃ t', transform f t = .ok t' ∧ Rel same hash t' (fun k => (m k).map (fun p => (p.1, f p.2)))) ∧
    copy none t = .ok t := by
  refine ⟨fun f => ⟨_, ?_, mapped_rel r f⟩, fun f => ⟨_, ?_, mapped_rel r (fun p => f p.2)⟩, ?_⟩
  · unfold Polyhash.map
    rw [mkArray_ok _ r.len]
    show (mapTbl (mapF f) t.table 0 _).bind _ = _
    have := mapTbl_spec (mapF f) t.table.length [] t.table (List.replicate t.table.length []) rfl (by simp)
    simp only [List.nil_append, List.map_nil, List.length_nil] at this
    rw [this]
    have e : t.table.map (mapF f) = t.table.map (fun b => b.map (fun e => ⟨e.h, e.key, f (e.key, e.data)⟩)) := by
      congr 1; funext b; exact mapF_spec f b
    rw [e]; rfl
  · unfold Polyhash.transform
    rw [mkArray_ok _ r.len]
    show (mapTbl (transF f) t.table 0 _).bind _ = _
    have := mapTbl_spec (transF f) t.table.length [] t.table (List.replicate t.table.length []) rfl (by simp)
    simp only [List.nil_append, List.map_nil, List.length_nil] at this
    rw [this]
    have e : t.table.map (transF f) = t.table.map (fun b => b.map (fun e => ⟨e.h, e.key, f e.data⟩)) := by
      congr 1; funext b; exact transF_spec f b
    rw [e]; rfl
  · unfold Polyhash.copy
    rw [mkArray_ok _ r.len]
    show Except.ok _ = _
    have := copyTbl_spec t.table.length [] t.table (List.replicate t.table.length []) rfl (by simp)
    simp only [List.nil_append, List.length_nil] at this
    rw [this]

theorem appF_spec {S : Type} (f : K × V → S → S) (b : List (Ent K V)) : ∀ s, appF f b s = (b.map (fun e => (e.key, e.data))).foldl (fun s p => f p s) s := by
  induction b with
  | nil => intro s; rfl
  | cons e r ih => intro s; simp [appF, ih]

theorem appToTbl_spec {S : Type} (f : K × V → S → S) (arr : List (List (Ent K V))) (j : Nat) : ∀ i s, arr.length - i = j →
    appToTbl f arr i s = (items (arr.drop i)).foldl (fun s p => f p s) s := by
  induction j with
  | zero =>
    intro i s hj
    unfold appToTbl
    rw [dif_neg (by omega), List.drop_eq_nil_of_le (by omega)]; rfl
  | succ j ih =>
    intro i s hj
    have hi : i < arr.length := by omega
    unfold appToTbl
    rw [dif_pos hi, ih _ _ (by omega), List.drop_eq_getElem_cons hi, appF_spec]
    unfold items
    rw [List.flatten_cons, List.map_append, List.foldl_append]

theorem lenB_spec (b : List (Ent K V)) : ∀ n, lenB b n = n + b.length := by
  induction b with
  | nil => intro n; simp [lenB]
  | cons e r ih => intro n; simp [lenB, ih]; omega

theorem sizesF_spec (arr : List (List (Ent K V))) (i : Nat) : ∀ l, i ≤ arr.length →
    sizesF arr i l = .ok ((arr.take i).map (fun b => (b.length : Int)) ++ l) := by
  induction i with
  | zero => intro l _; simp [sizesF]
  | succ i ih =>
    intro l hi
    unfold sizesF
    rw [asub_ok (show i < arr.length by omega)]
    show sizesF arr i _ = _
    rw [ih _ (by omega), lenB_spec, List.take_add_one, List.getElem?_eq_getElem (by omega), List.map_append, List.append_assoc]
    simp only [Option.toList_some, List.map_cons, List.map_nil, List.cons_append, List.nil_append, Int.zero_add]

/-- C43: `apply` visits every item exactly once; the bucket sizes add up to the number of items. -/
theorem C43_traversals {t : Tbl K V} {m : FMap K V} (r : Rel same hash t m) :
    (∃ l, Lists same l m ∧ ∀ (S : Type) (f : K × V → S → S) (s : S), apply f t s = l.foldl (fun s p => f p s) s) ∧
    (∃ l, bucketSizes t = .ok l ∧ l.sum = numItems t) := by
  refine ⟨⟨items t.table, r.lists, fun S f s => ?_⟩, ⟨_, sizesF_spec t.table t.table.length [] (by omega), ?_⟩⟩
  · unfold apply
    rw [appToTbl_spec f t.table _ 0 s rfl]; rfl
  · rw [List.take_length, List.append_nil, numItems, r.count]
    unfold items
    rw [List.length_map]
    induction t.table with
    | nil => rfl
    | cons b bs ih => simp only [List.map_cons, List.sum_cons, List.flatten_cons, List.length_append, ih]; push_cast; rfl

/-- every table reached by operations from `mkTable` meets the hypothesis of `C43_map` and `C43_traversals` -/
theorem C43_reached (hk : Keys same hash) (hint : Int) (hh : hint ≤ 2 ^ 53) (os : List (Op K V)) (hn : os.length < 2 ^ 53) :
    ∃ t, mkTable hint = .ok t ∧ Rel same hash (run hash same t os).1 (os.foldl (after same) FMap.empty) := by
  obtain ⟨t, h1, h2, h3⟩ := mkTable_rel (V := V) same hash hint hh
  exact ⟨t, h1, run_rel hk os h3 (by omega)⟩

/-! ### what goes wrong -/

/-- a size hint above 2^61: `roundUp` never stops (`lshift_` overflows to 0) -/
theorem C43_hint_violation (n : Int) (hn : 2 ^ 61 < n) (hm : n < 2 ^ 62) (fuel : Nat) : roundUp n fuel = none := by
  have z : ∀ fuel, roundF n 0 fuel = none := by
    intro fuel
    induction fuel with
    | zero => rfl
    | succ fuel ih =>
      unfold roundF
      rw [if_neg (by simp; omega)]
      exact ih
  have s : ∀ fuel k, k ≤ 62 → roundF n (BitVec.ofNat 63 (2 ^ k)) fuel = none := by
    intro fuel
    induction fuel with
    | zero => intro k _; rfl
    | succ fuel ih =>
      intro k hk
      have e2 : BitVec.ofNat 63 (2 ^ k) <<< 1 = BitVec.ofNat 63 (2 ^ (k + 1)) := by
        apply BitVec.eq_of_toNat_eq
        have : 2 ^ k ≤ 2 ^ 62 := Nat.pow_le_pow_right (by omega) hk
        rw [BitVec.toNat_shiftLeft, BitVec.toNat_ofNat, BitVec.toNat_ofNat, Nat.mod_eq_of_lt (show 2 ^ k < 2 ^ 63 by omega), Nat.shiftLeft_eq, Nat.pow_one, ← Nat.pow_succ]
      have hi : (BitVec.ofNat 63 (2 ^ k)).toInt ≤ 2 ^ 61 := by
        by_cases c : k = 62
        · subst c; decide
        · have : 2 ^ k ≤ 2 ^ 61 := Nat.pow_le_pow_right (by omega) (by omega)
          rw [BitVec.toInt_eq_toNat_cond, BitVec.toNat_ofNat, Nat.mod_eq_of_lt (by omega), if_pos (by omega)]; omega
      unfold roundF
      rw [if_neg (by omega), e2]
      by_cases c : k = 62
      · subst c
        have : BitVec.ofNat 63 (2 ^ (62 + 1)) = 0 := by decide
        rw [this]; exact z fuel
      · exact ih (k + 1) (by omega)
  exact s fuel 5 (by omega)

/-- a table of 32 items with different hash values, all in place -/
def full : Tbl Nat Nat := ⟨(List.range 32).map (fun i => if i = 31 then [] else [⟨BitVec.ofNat 63 i, i, i⟩]), 31⟩

/-- If the exception Interrupt comes while the table grows, `handle _` takes it for the end of the table: the insertion seems to succeed,
but items are lost, and the count is wrong. -/
theorem C43_interrupt_violation : ∃ t', insert (fun k : Nat => BitVec.ofNat 63 k) (fun a b => a == b) (some 4) full 31 31 = .ok t' ∧
    peek (fun k : Nat => BitVec.ofNat 63 k) (fun a b => a == b) full 4 = .ok (some 4) ∧
    peek (fun k : Nat => BitVec.ofNat 63 k) (fun a b => a == b) t' 4 = .ok none ∧ numItems t' = 32 ∧ (items t'.table).length = 4 := by
  refine ⟨_, rfl, ?_⟩
  decide +kernel

/-- If `pred` raises an exception in the middle of a bucket, the items before it that do not satisfy it are counted as removed but stay. -/
theorem C43_filter_violation : ∃ (t : Tbl Nat Nat) (pred : Nat × Nat → Option Bool),
    numItems t = (items t.table).length ∧ (filter pred t).2 = false ∧ numItems (filter pred t).1 ≠ (items (filter pred t).1.table).length := by
  refine ⟨⟨[[⟨0, 1, 1⟩, ⟨0, 2, 2⟩]], 2⟩, fun p => if p.1 = 1 then some false else none, ?_⟩
  decide +kernel

/-- a hash function with collisions: keys and hash values modulo 10 and modulo 2 -/
example : ∃ t, mkTable 5 = .ok t ∧ Results (fun a b : Nat => a % 10 == b % 10) FMap.empty
    [.insert 3 30, .insert 13 31, .peek 23, .peekInsert 5 50, .remove 3, .listItems, .numItems, .find 7]
    (run (fun k : Nat => BitVec.ofNat 63 (k % 2)) (fun a b : Nat => a % 10 == b % 10) t
      [.insert 3 30, .insert 13 31, .peek 23, .peekInsert 5 50, .remove 3, .listItems, .numItems, .find 7]).2 :=
  C43_table ⟨by simp, by simp; omega, by simp; omega, fun a b h => by
    have : a % 10 = b % 10 := by simpa using h
    congr 1; omega⟩ 5 (by omega) _ (by simp)

end Mosml.Hash.Polyhash
