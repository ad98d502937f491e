import Verif.Hash.Hashset
import Verif.Hash.PolyhashProps

namespace Mosml.Hash.Hashset

open Polyhash (Ent Tbl Exn mkArray asub aupd index roundUp Keys Lists FMap Rel Placed items)

variable {K : Type}

/-! ### the specification: finite sets up to `same` -/

/-- a set: for every key the element equal to it, if there is one -/
abbrev FSet (K : Type) := K → Option K

def FSet.empty : FSet K := fun _ => none
def FSet.add (same : K → K → Bool) (S : FSet K) (k : K) : FSet K := fun k' => if same k' k then some k else S k'
def FSet.del (same : K → K → Bool) (S : FSet K) (k : K) : FSet K := fun k' => if same k' k then none else S k'

/-- `l` lists the elements, each once -/
structure Enumerates (same : K → K → Bool) (l : List K) (S : FSet K) : Prop where
  once : l.Pairwise (fun a b => same a b = false)
  get : ∀ k x, S k = some x ↔ x ∈ l ∧ same k x = true

inductive Op (K : Type) where
  | add (k : K)
  | addList (ks : List K)
  | delete (k : K)
  | member (k : K)
  | retrieve (k : K)
  | peek (k : K)
  | numItems
  | isEmpty
  | listItems

inductive Out (K : Type) where
  | unit
  | bool (b : Bool)
  | item (k : K)
  | opt (k : Option K)
  | num (n : Int)
  | items (l : List K)
  | exn (e : Exn)

/-- how many elements an operation may add -/
def Op.size : Op K → Nat
  | .add _ => 1
  | .addList ks => ks.length
  | _ => 0

/-- one operation of the code; an operation that raises an exception leaves the set as it is -/
def step (hash : K → BitVec 63) (same : K → K → Bool) (t : HSet K) : Op K → HSet K × Out K
  | .add k => match add hash same t k with
    | .ok t => (t, .unit)
    | .error e => (t, .exn e)
  | .addList ks => match addList hash same t ks with
    | .ok t => (t, .unit)
    | .error e => (t, .exn e)
  | .delete k => match delete hash same t k with
    | .ok t => (t, .unit)
    | .error e => (t, .exn e)
  | .member k => (t, .bool (member same t k))
  | .retrieve k => match retrieve hash same t k with
    | .ok v => (t, .item v)
    | .error e => (t, .exn e)
  | .peek k => match peek hash same t k with
    | .ok v => (t, .opt v)
    | .error e => (t, .exn e)
  | .numItems => (t, .num (numItems t))
  | .isEmpty => (t, .bool (isEmpty t))
  | .listItems => (t, .items (listItems t))

def run (hash : K → BitVec 63) (same : K → K → Bool) (t : HSet K) : List (Op K) → HSet K × List (Out K)
  | [] => (t, [])
  | o :: os =>
    let r := step hash same t o
    let q := run hash same r.1 os
    (q.1, r.2 :: q.2)

/-- the set after an operation -/
def after (same : K → K → Bool) (S : FSet K) : Op K → FSet K
  | .add k => S.add same k
  | .addList ks => ks.foldl (FSet.add same) S
  | .delete k => S.del same k
  | _ => S

/-- the results an operation may have -/
def Result (same : K → K → Bool) (S : FSet K) : Op K → Out K → Prop
  | .add _, o => o = .unit
  | .addList _, o => o = .unit
  | .delete k, o => o = if (S k).isSome then .unit else .exn .not_found
  | .member k, o => o = .bool (S k).isSome
  | .retrieve k, o => o = match S k with
    | some x => .item x
    | none => .exn .not_found
  | .peek k, o => o = .opt (S k)
  | .numItems, o => ∃ l, Enumerates same l S ∧ o = .num (l.length : Nat)
  | .isEmpty, o => ∃ b, o = .bool b ∧ (b = true ↔ ∀ k, S k = none)
  | .listItems, o => ∃ l, Enumerates same l S ∧ o = .items l

def Results (same : K → K → Bool) : FSet K → List (Op K) → List (Out K) → Prop
  | _, [], os => os = []
  | S, o :: os, r :: rs => Result same S o r ∧ Results same (after same S o) os rs
  | _, _ :: _, [] => False

/-- a set made by operations, and what it is -/
def Reached (hash : K → BitVec 63) (same : K → K → Bool) (t : HSet K) (S : FSet K) : Prop :=
  ∃ t0 os, empty = .ok t0 ∧ (os.map Op.size).sum < 2 ^ 53 ∧ (run hash same t0 os).1 = t ∧
    os.foldl (after same) FSet.empty = S

/-! ### proofs -/

variable {same : K → K → Bool} {hv : K → BitVec 63}

def FSet.map (S : FSet K) : FMap K Unit := fun k => (S k).map (fun x => (x, ()))

/-- the table holds the set -/
def Is (same : K → K → Bool) (hv : K → BitVec 63) (t : HSet K) (S : FSet K) : Prop := Rel same hv t S.map

theorem map_add (S : FSet K) (k : K) : (S.add same k).map = S.map.insert same k () := by
  funext k'
  simp only [FSet.map, FSet.add, Polyhash.FMap.insert]
  split <;> rfl

theorem map_del (S : FSet K) (k : K) : (S.del same k).map = S.map.remove same k := by
  funext k'
  simp only [FSet.map, FSet.del, Polyhash.FMap.remove]
  split <;> rfl

theorem lists_enum {l : List (K × Unit)} {S : FSet K} (h : Lists same l S.map) : Enumerates same (l.map Prod.fst) S := by
  refine ⟨List.pairwise_map.mpr h.once, fun k x => ?_⟩
  have := h.get k (x, ())
  simp only [FSet.map, Option.map_eq_some_iff, Prod.mk.injEq, and_true, exists_eq_right] at this
  rw [this, List.mem_map]
  constructor
  · rintro ⟨h1, h2⟩; exact ⟨⟨_, h1, rfl⟩, h2⟩
  · rintro ⟨⟨⟨y, u⟩, h1, rfl⟩, h2⟩; exact ⟨h1, h2⟩

theorem Enumerates.perm (h : Keys same hv) {l l' : List K} {S : FSet K} (hl : Enumerates same l S) (p : l'.Perm l) : Enumerates same l' S := by
  refine ⟨?_, fun k q => by rw [hl.get, p.mem_iff]⟩
  exact (p.pairwise_iff (fun {a b} hab => by rw [h.symm']; exact hab)).mpr hl.once

/-- the elements in the order of the table -/
def keys (t : HSet K) : List K := t.table.flatten.map (fun e => e.key)

theorem keys_eq (t : HSet K) : keys t = (items t.table).map Prod.fst := by
  unfold keys items; rw [List.map_map]; rfl

theorem Is.enum {t : HSet K} {S : FSet K} (r : Is same hv t S) : Enumerates same (keys t) S := by
  rw [keys_eq]; exact lists_enum r.lists

theorem Is.count {t : HSet K} {S : FSet K} (r : Is same hv t S) : t.n = (keys t).length := by
  rw [keys_eq, List.length_map]; exact Rel.count r

theorem copyB_spec {k : Nat} (hk : k ≤ 54) (b : List (Item K)) : ∀ (arr : List (List (Item K))), arr.length = 2 ^ k → Placed hv (2 ^ k) arr →
    (∀ e ∈ b, e.h = hv e.key) →
    ∃ arr', copyB (2 ^ k) b arr = .ok arr' ∧ arr'.length = 2 ^ k ∧ Placed hv (2 ^ k) arr' ∧ arr'.flatten.Perm (b ++ arr.flatten) := by
  induction b with
  | nil => intro arr hl hp _; exact ⟨arr, rfl, hl, hp, .refl _⟩
  | cons e r ih =>
    intro arr hl hp hb
    have hi : index e.h (2 ^ k) < arr.length := by rw [hl]; exact Polyhash.index_lt _ (by omega)
    obtain ⟨A, B, e1, e2, e3⟩ := Polyhash.set_split hi
    have hp' : Placed hv (2 ^ k) (arr.set (index e.h (2 ^ k)) (e :: arr[index e.h (2 ^ k)])) := by
      refine Polyhash.placed_set hp hi ?_
      intro x hx
      rcases List.mem_cons.mp hx with rfl | hx
      · exact ⟨hb x (by simp), rfl⟩
      · exact hp _ hi x hx
    obtain ⟨arr', h1, h2, h3, h4⟩ := ih _ (by rw [List.length_set]; exact hl) hp' (fun x hx => hb x (by simp [hx]))
    refine ⟨arr', ?_, h2, h3, h4.trans ?_⟩
    · simp only [copyB, Polyhash.asub_ok hi, Polyhash.aupd_ok _ hi, bind, Except.bind]
      exact h1
    · rw [e3]
      conv_rhs => rw [e1]
      simp only [List.flatten_append, List.flatten_cons, List.cons_append]
      exact (List.perm_middle.append_left r).trans List.perm_middle

theorem copyAll_spec {k : Nat} (hk : k ≤ 54) : ∀ (arr newArr : List (List (Item K))), (∀ b ∈ arr, ∀ e ∈ b, e.h = hv e.key) →
    newArr.length = 2 ^ k → Placed hv (2 ^ k) newArr →
    ∃ arr', copyAll (2 ^ k) arr newArr = .ok arr' ∧ arr'.length = 2 ^ k ∧ Placed hv (2 ^ k) arr' ∧
      arr'.flatten.Perm (arr.flatten ++ newArr.flatten)
  | [], newArr, _, hl, hp => ⟨newArr, rfl, hl, hp, .refl _⟩
  | b :: arr, newArr, ha, hl, hp => by
      obtain ⟨a1, h1, h2, h3, h4⟩ := copyB_spec hk b newArr hl hp (ha b (by simp))
      obtain ⟨a2, g1, g2, g3, g4⟩ := copyAll_spec hk arr a1 (fun b hb => ha b (by simp [hb])) h2 h3
      refine ⟨a2, ?_, g2, g3, g4.trans ?_⟩
      · simp only [copyAll, h1, bind, Except.bind]; exact g1
      · refine (h4.append_left _).trans ?_
        rw [List.flatten_cons, ← List.append_assoc]
        exact List.perm_append_comm.append_right _

theorem grow_spec (hk : Keys same hv) {t : HSet K} {m : FMap K Unit} (r : Rel same hv t m) (hn : t.n < 2 ^ 53) :
    ∃ t', growTable t = .ok t' ∧ t'.n = t.n ∧ Rel same hv t' m := by
  obtain ⟨k, hk1, hk2⟩ := r.size
  unfold growTable
  dsimp only
  by_cases c : t.n ≥ t.table.length
  · rw [if_pos c]
    have hlt : (2 : Int) ^ k < 2 ^ 53 := by rw [hk2] at c; push_cast at c; omega
    have hk53 : k < 53 := by
      by_contra hc
      have : k = 53 := by omega
      rw [this] at hlt; omega
    have e2 : t.table.length + t.table.length = 2 ^ (k + 1) := by rw [hk2, Nat.pow_succ]; omega
    have le : 2 ^ (k + 1) ≤ 2 ^ 53 := Nat.pow_le_pow_right (by omega) (by omega)
    rw [e2, Polyhash.mkArray_ok _ (by unfold Polyhash.maxLen; omega)]
    have rf : (List.replicate (2 ^ (k + 1)) ([] : List (Item K))).flatten = [] := by
      rw [List.flatten_replicate_nil]
    obtain ⟨a, h1, h2, h3, h4⟩ := copyAll_spec (hv := hv) (k := k + 1) (by omega) t.table (List.replicate (2 ^ (k + 1)) []) (fun b hb e he => by
      obtain ⟨i, hi, rfl⟩ := List.getElem_of_mem hb
      exact (r.placed i hi e he).1) (by simp) (fun i hi e he => by simp at he)
    have h4' : a.flatten.Perm t.table.flatten := by simpa [rf] using h4
    refine ⟨⟨a, t.n⟩, ?_, rfl, ⟨k + 1, by omega, h2⟩, by simpa [h2] using h3, r.lists.perm hk (Polyhash.items_perm h4'), ?_⟩
    · simp only [h1, bind, Except.bind]
    · rw [(Polyhash.items_perm h4').length_eq]; exact r.count
  · rw [if_neg c]; exact ⟨t, rfl, rfl, r⟩

theorem lookAdd_eq (hash : BitVec 63) (key : K) (b : List (Item K)) : lookAdd same hash key b = Polyhash.lookIns same hash key () b := by
  induction b with
  | nil => rfl
  | cons e r ih =>
    simp only [lookAdd, Polyhash.lookIns, ih]
    split
    · rfl
    · cases Polyhash.lookIns same hash key () r <;> rfl

/-- as `Polyhash.insert`, but for growing -/
theorem Is.add (hk : Keys same hv) {t : HSet K} {S : FSet K} (r : Is same hv t S) (key : K) (hn : t.n + 1 < 2 ^ 53) :
    ∃ t', add hv same t key = .ok t' ∧ t'.n ≤ t.n + 1 ∧ Is same hv t' (S.add same key) := by
  obtain ⟨A, b, B, e, hs, hu, ho, hb, hp⟩ := Rel.bucket hk r key
  unfold Hashset.add
  dsimp only
  rw [hs]
  simp only [bind, Except.bind, lookAdd_eq, Is, map_add]
  rcases Polyhash.lookIns_spec (same := same) (hv key) key () b with ⟨h1, h2⟩ | ⟨P, k, v, Q, h1, h2, h3⟩
  · rw [h1]
    simp only [hu]
    have h0 : ∀ p ∈ items t.table, same key p.1 = false := by
      rw [e]; exact Polyhash.absent hk ho (fun e he => (hb e he).1) h2
    have hperm : (items (A ++ (⟨hv key, key, ()⟩ :: b) :: B)).Perm ((key, ()) :: items t.table) := by
      rw [e, Polyhash.items_mid, Polyhash.items_mid]
      simp only [List.map_cons, List.append_assoc, List.cons_append]
      exact List.perm_middle
    have len : (A ++ (⟨hv key, key, ()⟩ :: b) :: B).length = t.table.length := by rw [e]; simp
    obtain ⟨t', g1, g2, g3⟩ := grow_spec (same := same) (hv := hv) hk (t := ⟨A ++ (⟨hv key, key, ()⟩ :: b) :: B, t.n + 1⟩)
      (m := S.map.insert same key ())
      ⟨by rw [len]; exact r.size, by
        rw [len]
        refine hp _ ?_
        intro x hx
        rcases List.mem_cons.mp hx with rfl | hx
        · exact ⟨rfl, rfl⟩
        · exact hb x hx, (r.lists.add hk () h0).perm hk hperm, by rw [hperm.length_eq, Rel.count r]; simp⟩ hn
    exact ⟨t', g1, by rw [g2], g3⟩
  · rw [h3]
    have len : (A ++ (P ++ ⟨hv key, key, ()⟩ :: Q) :: B).length = t.table.length := by rw [e]; simp
    refine ⟨⟨A ++ (P ++ ⟨hv key, key, ()⟩ :: Q) :: B, t.n⟩, ?_, by simp, ⟨by rw [len]; exact r.size, ?_, ?_, ?_⟩⟩
    · cases P <;> simp only [List.nil_append, List.cons_append, hu]
    · rw [len]
      refine hp _ ?_
      intro x hx
      simp only [List.mem_append, List.mem_cons] at hx
      rcases hx with hx | rfl | hx
      · exact hb x (by rw [h1]; simp [hx])
      · exact ⟨rfl, rfl⟩
      · exact hb x (by rw [h1]; simp [hx])
    · have hl := r.lists
      rw [e, h1, Polyhash.items_mid] at hl
      have := Lists.replace hk (A := A.flatten.map (fun e => (e.key, e.data)) ++ P.map (fun e => (e.key, e.data)))
        (B := Q.map (fun e => (e.key, e.data)) ++ B.flatten.map (fun e => (e.key, e.data))) (k0 := k) (v0 := v) (m := S.map) (k := key) () (by simpa using hl) h2
      rw [Polyhash.items_mid]
      show Lists same _ (fun k' => if same k' key then some (key, ()) else S.map k')
      simpa using this
    · rw [Rel.count r, e, h1, Polyhash.items_mid, Polyhash.items_mid]; simp

theorem Is.addList (hk : Keys same hv) : ∀ (ks : List K) {t : HSet K} {S : FSet K}, Is same hv t S → t.n + ks.length < 2 ^ 53 →
    ∃ t', addList hv same t ks = .ok t' ∧ t'.n ≤ t.n + ks.length ∧ Is same hv t' (ks.foldl (FSet.add same) S)
  | [], t, S, r, _ => ⟨t, rfl, by simp, r⟩
  | k :: ks, t, S, r, hn => by
      simp only [List.length_cons] at hn
      obtain ⟨t1, h1, h2, h3⟩ := r.add hk k (by omega)
      obtain ⟨t2, g1, g2, g3⟩ := Is.addList hk ks h3 (by omega)
      refine ⟨t2, ?_, by simp only [List.length_cons]; omega, g3⟩
      simp only [Hashset.addList, h1, bind, Except.bind]
      exact g1

theorem lookDel_eq (hash : BitVec 63) (key : K) (b : List (Item K)) :
    (lookDel same hash key b).map Prod.snd = (Polyhash.lookRm same hash key b).map Prod.snd := by
  induction b with
  | nil => rfl
  | cons e r ih =>
    simp only [lookDel, Polyhash.lookRm]
    split
    · rfl
    · cases h1 : lookDel same hash key r <;> cases h2 : Polyhash.lookRm same hash key r <;> rw [h1, h2] at ih <;>
        simp_all [Except.map, bind, Except.bind]

theorem delete_eq (t : HSet K) (key : K) : delete hv same t key = (Polyhash.remove hv same t key).map Prod.snd := by
  unfold delete Polyhash.remove
  dsimp only
  cases h0 : asub t.table (index (hv key) t.table.length) with
  | error e => rfl
  | ok b =>
    have ih := lookDel_eq (same := same) (hv key) key b
    simp only [bind, Except.bind]
    cases h1 : lookDel same (hv key) key b <;> cases h2 : Polyhash.lookRm same (hv key) key b <;> rw [h1, h2] at ih <;>
      simp_all [Except.map]
    rename_i p q
    cases aupd t.table (index (hv key) t.table.length) q.2 <;> rfl

theorem look_none {h : BitVec 63} {key : K} {b : List (Item K)} (e : look same h key b = none) : Polyhash.look same h key b = none := by
  induction b with
  | nil => rfl
  | cons x r ih =>
    simp only [look] at e
    simp only [Polyhash.look]
    split at e
    · cases e
    · rename_i c; rw [if_neg c]; exact ih e

theorem look_some {h : BitVec 63} {key x : K} {b : List (Item K)} (e : look same h key b = some x) :
    ∃ P Q, b = P ++ ⟨h, x, ()⟩ :: Q ∧ same key x = true := by
  induction b with
  | nil => simp [look] at e
  | cons y r ih =>
    simp only [look] at e
    split at e
    · rename_i c
      simp only [Option.some.injEq] at e
      exact ⟨[], r, by rw [c.1, ← e]; rfl, by rw [← e]; exact c.2⟩
    · obtain ⟨P, Q, e1, e2⟩ := ih e
      exact ⟨y :: P, Q, by rw [e1]; rfl, e2⟩

theorem Is.peek (hk : Keys same hv) {t : HSet K} {S : FSet K} (r : Is same hv t S) (key : K) : peek hv same t key = .ok (S key) := by
  obtain ⟨A, b, B, e, hs, _, ho, hb, _⟩ := Rel.bucket hk r key
  have hl := r.lists
  rw [e] at hl
  unfold Hashset.peek
  rw [hs]
  simp only [bind, Except.bind]
  congr 1
  cases c : look same (hv key) key b with
  | none =>
    have := hl.absent (Polyhash.absent hk ho (fun e he => (hb e he).1) (Polyhash.look_none (look_none c)))
    simp only [FSet.map, Option.map_eq_none_iff] at this
    rw [this]
  | some x =>
    obtain ⟨P, Q, e1, e2⟩ := look_some c
    rw [e1, Polyhash.items_mid] at hl
    have : S.map key = some (x, ()) := (hl.get key (x, ())).mpr ⟨by simp, e2⟩
    simp only [FSet.map, Option.map_eq_some_iff, Prod.mk.injEq, and_true, exists_eq_right] at this
    rw [this]

theorem Is.retrieve (hk : Keys same hv) {t : HSet K} {S : FSet K} (r : Is same hv t S) (key : K) :
    retrieve hv same t key = match S key with | some x => .ok x | none => .error .not_found := by
  have := r.peek hk key
  unfold Hashset.peek at this
  unfold Hashset.retrieve
  cases hs : asub t.table (index (hv key) t.table.length) with
  | error x => rw [hs] at this; cases this
  | ok b =>
    rw [hs] at this
    simp only [bind, Except.bind, Except.ok.injEq] at this ⊢
    rw [this]
    cases S key <;> rfl

theorem existsF_eq (p : K → Bool) (b : List (Item K)) : existsF p b = (b.map (fun e => e.key)).any p := by
  induction b with
  | nil => rfl
  | cons e r ih => simp [existsF, ih]

theorem allF_eq (p : K → Bool) (b : List (Item K)) : allF p b = (b.map (fun e => e.key)).all p := by
  induction b with
  | nil => rfl
  | cons e r ih => simp [allF, ih]

theorem exists_eq (p : K → Bool) (t : HSet K) : exists_ p t = (keys t).any p := by
  unfold exists_ keys
  induction t.table with
  | nil => rfl
  | cons b r ih => simp only [List.any_cons, ih, existsF_eq, List.flatten_cons, List.map_append, List.any_append]

theorem all_eq (p : K → Bool) (t : HSet K) : all p t = (keys t).all p := by
  unfold all keys
  induction t.table with
  | nil => rfl
  | cons b r ih => simp only [List.all_cons, ih, allF_eq, List.flatten_cons, List.map_append, List.all_append]

theorem Enumerates.isSome {l : List K} {S : FSet K} (h : Enumerates same l S) (k : K) : (S k).isSome = true ↔ ∃ x ∈ l, same k x = true := by
  rw [Option.isSome_iff_exists]
  constructor
  · rintro ⟨x, hx⟩; exact ⟨x, (h.get k x).mp hx⟩
  · rintro ⟨x, hx⟩; exact ⟨x, (h.get k x).mpr hx⟩

theorem Is.member {t : HSet K} {S : FSet K} (r : Is same hv t S) (k : K) : member same t k = (S k).isSome := by
  rw [Bool.eq_iff_iff, r.enum.isSome, Hashset.member, exists_eq, List.any_eq_true]

theorem listLoop_eq (b : List (Item K)) : ∀ l, listLoop b l = (b.map (fun e => e.key)).reverse ++ l := by
  induction b with
  | nil => intro l; rfl
  | cons e r ih => intro l; simp [listLoop, ih]

theorem listItems_perm (t : HSet K) : (listItems t).Perm (keys t) := by
  unfold listItems keys
  induction t.table with
  | nil => exact .refl _
  | cons b r ih =>
    rw [List.foldr_cons, listLoop_eq, List.flatten_cons, List.map_append]
    exact (List.reverse_perm _).append ih

theorem isEmpty_spec {t : HSet K} {S : FSet K} (hk : Keys same hv) (r : Is same hv t S) : isEmpty t = true ↔ ∀ k, S k = none := by
  simp only [isEmpty, decide_eq_true_eq]
  rw [r.count]
  constructor
  · intro h k
    have : keys t = [] := List.length_eq_zero_iff.mp (by omega)
    cases c : S k with
    | none => rfl
    | some x =>
      have := ((r.enum).get k x).mp c
      rw [‹keys t = []›] at this; simp at this
  · intro h
    cases c : keys t with
    | nil => rfl
    | cons x l =>
      have := (r.enum.get x x).mpr ⟨by rw [c]; simp, hk.refl x⟩
      rw [h x] at this; cases this

theorem del_absent {t : HSet K} {S : FSet K} (hk : Keys same hv) (r : Is same hv t S) {k : K} (h : S k = none) : S.del same k = S := by
  have := Polyhash.remove_absent hk r (k := k) (by simp [FSet.map, h])
  rw [← map_del] at this
  funext k'
  have := congrFun this k'
  simp only [FSet.map] at this
  revert this
  cases S.del same k k' <;> cases S k' <;> simp

theorem step_spec (hk : Keys same hv) {t : HSet K} {S : FSet K} (r : Is same hv t S) (o : Op K) (hn : t.n + o.size < 2 ^ 53) :
    Result same S o (step hv same t o).2 ∧ Is same hv (step hv same t o).1 (after same S o) ∧ (step hv same t o).1.n ≤ t.n + o.size := by
  cases o with
  | add k =>
    obtain ⟨t', h1, h2, h3⟩ := r.add hk k hn
    simp only [step, h1]; exact ⟨rfl, h3, h2⟩
  | addList ks =>
    obtain ⟨t', h1, h2, h3⟩ := Is.addList hk ks r hn
    simp only [step, h1]; exact ⟨rfl, h3, h2⟩
  | delete k =>
    have h := Rel.remove hk r k
    cases c : S k with
    | none =>
      have hm : S.map k = none := by simp [FSet.map, c]
      rw [hm] at h
      dsimp only at h
      have hd : delete hv same t k = .error .not_found := by rw [delete_eq, h]; rfl
      simp only [step, hd, Result, c, after]
      exact ⟨by simp, by rw [del_absent hk r c]; exact r, by simp [Op.size]⟩
    | some x =>
      have hm : S.map k = some (x, ()) := by simp [FSet.map, c]
      rw [hm] at h
      obtain ⟨t', h1, h2, h3⟩ := h
      have hd : delete hv same t k = .ok t' := by rw [delete_eq, h1]; rfl
      simp only [step, hd, Result, c, after]
      exact ⟨by simp, by rw [Is, map_del]; exact h3, by simp only [Op.size]; omega⟩
  | member k => exact ⟨by simp only [step, Result, r.member], r, by simp [step, Op.size]⟩
  | retrieve k =>
    have h := r.retrieve hk k
    cases c : S k with
    | none =>
      rw [c] at h
      dsimp only at h
      simp only [step, h, Result, c]; exact ⟨trivial, r, by simp [Op.size]⟩
    | some p =>
      rw [c] at h
      dsimp only at h
      simp only [step, h, Result, c]; exact ⟨trivial, r, by simp [Op.size]⟩
  | peek k =>
    have h := r.peek hk k
    simp only [step, h]; exact ⟨rfl, r, by simp [Op.size]⟩
  | numItems => exact ⟨⟨_, r.enum, by simp [numItems, r.count, step]⟩, r, by simp [step, Op.size]⟩
  | isEmpty => exact ⟨⟨_, rfl, isEmpty_spec hk r⟩, r, by simp [step, Op.size]⟩
  | listItems => exact ⟨⟨_, r.enum.perm hk (listItems_perm t), rfl⟩, r, by simp [step, Op.size]⟩

theorem run_spec (hk : Keys same hv) (os : List (Op K)) : ∀ {t : HSet K} {S : FSet K}, Is same hv t S → t.n + (os.map Op.size).sum < 2 ^ 53 →
    Results same S os (run hv same t os).2 ∧ Is same hv (run hv same t os).1 (os.foldl (after same) S) := by
  induction os with
  | nil => intro t S r _; exact ⟨rfl, r⟩
  | cons o os ih =>
    intro t S r hn
    simp only [List.map_cons, List.sum_cons] at hn
    obtain ⟨h1, h2, h3⟩ := step_spec hk r o (by omega)
    obtain ⟨g1, g2⟩ := ih h2 (by omega)
    exact ⟨⟨h1, g1⟩, g2⟩

theorem empty_is : ∃ t : HSet K, empty = .ok t ∧ t.n = 0 ∧ Is same hv t FSet.empty := by
  obtain ⟨t, h1, h2, h3⟩ := Polyhash.mkTable_rel (V := Unit) same hv 13 (by omega)
  exact ⟨t, h1, h2, h3⟩

/-- **C79** For every equality, every hash function that respects it, and every sequence of operations that adds fewer than 2^53 items,
a new set gives the results of a set. -/
theorem C79_set (hk : Keys same hv) (os : List (Op K)) (hn : (os.map Op.size).sum < 2 ^ 53) :
    ∃ t, empty = .ok t ∧ Results same FSet.empty os (run hv same t os).2 := by
  obtain ⟨t, h1, h2, h3⟩ := empty_is (same := same) (hv := hv)
  exact ⟨t, h1, (run_spec hk os h3 (by omega)).1⟩

/-- an equality and a hash function with many collisions -/
theorem keys_mod : Keys (fun a b : Nat => a % 10 == b % 10) (fun a => BitVec.ofNat 63 (a % 2)) :=
  ⟨by simp, by simp; intro a b h; exact h.symm, by simp; intro a b c h1 h2; exact h1.trans h2, by
    intro a b h
    have h : a % 10 = b % 10 := by simpa using h
    have : a % 2 = b % 2 := by omega
    rw [this]⟩

example : ∃ t : HSet Nat, empty = .ok t ∧ Results (fun a b : Nat => a % 10 == b % 10) FSet.empty
    [.add 1, .addList [2, 13, 3], .delete 22, .delete 2, .retrieve 3, .numItems]
    (run (fun a => BitVec.ofNat 63 (a % 2)) (fun a b => a % 10 == b % 10) t
      [.add 1, .addList [2, 13, 3], .delete 22, .delete 2, .retrieve 3, .numItems]).2 :=
  C79_set keys_mod _ (by decide)

theorem reached_is (hk : Keys same hv) {t : HSet K} {S : FSet K} (h : Reached hv same t S) : Is same hv t S := by
  obtain ⟨t0, os, h1, h2, h3, h4⟩ := h
  obtain ⟨t, g1, g2, g3⟩ := empty_is (same := same) (hv := hv)
  rw [h1] at g1
  cases g1
  rw [← h3, ← h4]
  exact (run_spec hk os g3 (by omega)).2

/-- **C79** `singleton` makes the set of the item. -/
theorem C79_singleton (hk : Keys same hv) (item : K) : ∃ t, singleton hv same item = .ok t ∧
    Reached hv same t (FSet.add same FSet.empty item) := by
  obtain ⟨t, h1, h2, h3⟩ := empty_is (same := same) (hv := hv)
  obtain ⟨t', g1, g2, g3⟩ := h3.add hk item (by omega)
  refine ⟨t', ?_, t, [.add item], h1, by simp [Op.size], ?_, rfl⟩
  · simp only [singleton, h1, bind, Except.bind]; exact g1
  · simp only [run, step, g1]

theorem appF_eq {S : Type} (f : K → S → S) (b : List (Item K)) : ∀ s, appF f b s = (b.map (fun e => e.key)).foldl (fun s x => f x s) s := by
  induction b with
  | nil => intro s; rfl
  | cons e r ih => intro s; simp [appF, ih]

theorem foldLoop_eq {S : Type} (f : K → S → S) (b : List (Item K)) : ∀ s, foldLoop f b s = (b.map (fun e => e.key)).foldl (fun s x => f x s) s := by
  induction b with
  | nil => intro s; rfl
  | cons e r ih => intro s; simp [foldLoop, ih]

theorem app_eq {S : Type} (f : K → S → S) (t : HSet K) : ∀ s, app f t s = (keys t).foldl (fun s x => f x s) s := by
  unfold app keys
  induction t.table with
  | nil => intro s; rfl
  | cons b r ih => intro s; rw [List.foldl_cons, appF_eq, ih, List.flatten_cons, List.map_append, List.foldl_append]

theorem fold_eq {S : Type} (f : K → S → S) (e : S) (t : HSet K) :
    fold f e t = (t.table.reverse.flatten.map (fun e => e.key)).foldl (fun s x => f x s) e := by
  unfold fold
  induction t.table with
  | nil => rfl
  | cons b r ih =>
    rw [List.foldr_cons, foldLoop_eq, ih]
    simp

theorem findB_eq (p : K → Bool) (b : List (Item K)) : findB p b = (b.map (fun e => e.key)).find? p := by
  induction b with
  | nil => rfl
  | cons e r ih => simp only [findB, ih, List.map_cons, List.find?_cons]; split <;> simp_all

theorem findF_spec (p : K → Bool) (arr : List (List (Item K))) : ∀ i, i ≤ arr.length →
    ∃ o, findF p arr i = .ok o ∧ (∀ x, o = some x → p x = true ∧ ∃ b ∈ arr.take i, ∃ e ∈ b, e.key = x) ∧
      (o = none → ∀ b ∈ arr.take i, ∀ e ∈ b, p e.key = false)
  | 0, _ => ⟨none, rfl, by simp, by simp⟩
  | i + 1, hi => by
      obtain ⟨o, h1, h2, h3⟩ := findF_spec p arr i (by omega)
      have et : arr.take (i + 1) = arr.take i ++ [arr[i]] := by rw [List.take_add_one, List.getElem?_eq_getElem (by omega)]; rfl
      simp only [findF, Polyhash.asub_ok (show i < arr.length by omega), bind, Except.bind, findB_eq]
      cases c : (arr[i].map (fun e => e.key)).find? p with
      | none =>
        refine ⟨o, h1, ?_, ?_⟩
        · intro x hx
          obtain ⟨k1, b, k2, k3⟩ := h2 x hx
          exact ⟨k1, b, by rw [et]; exact List.mem_append_left _ k2, k3⟩
        · intro ho b hb e he
          rw [et, List.mem_append] at hb
          rcases hb with hb | hb
          · exact h3 ho b hb e he
          · simp only [List.mem_singleton] at hb
            subst hb
            rw [List.find?_eq_none] at c
            have := c e.key (List.mem_map.mpr ⟨e, he, rfl⟩)
            simpa using this
      | some x =>
        refine ⟨some x, rfl, ?_, by simp⟩
        intro y hy
        simp only [Option.some.injEq] at hy
        subst hy
        have k1 := List.find?_some c
        have k2 := List.mem_of_find?_eq_some c
        obtain ⟨e, k3, k4⟩ := List.mem_map.mp k2
        exact ⟨k1, arr[i], by rw [et]; exact List.mem_append_right _ (by simp), e, k3, k4⟩

/-- **C79** The functions that go through a set see each element once. -/
theorem C79_traversals (hk : Keys same hv) {t : HSet K} {S : FSet K} (h : Reached hv same t S) {T : Type} (f : K → T → T) (s : T)
    (p : K → Bool) :
    (∃ l, Enumerates same l S ∧ app f t s = l.foldl (fun s x => f x s) s) ∧
    (∃ l, Enumerates same l S ∧ fold f s t = l.foldl (fun s x => f x s) s) ∧
    (all p t = true ↔ ∀ k x, S k = some x → p x = true) ∧
    (exists_ p t = true ↔ ∃ k x, S k = some x ∧ p x = true) ∧
    (∃ o, find p t = .ok o ∧ (∀ x, o = some x → p x = true ∧ ∃ k, S k = some x) ∧
      (o = none → ∀ k x, S k = some x → p x = false)) := by
  have r := reached_is hk h
  have he := r.enum
  have hx : ∀ x ∈ keys t, S x = some x := fun x hx => (he.get x x).mpr ⟨hx, hk.refl x⟩
  refine ⟨⟨keys t, he, app_eq f t s⟩, ⟨_, he.perm hk ?_, fold_eq f s t⟩, ?_, ?_, ?_⟩
  · exact ((List.reverse_perm t.table).flatten).map _
  · rw [all_eq, List.all_eq_true]
    exact ⟨fun h k x hk => h x ((he.get k x).mp hk).1, fun h x hx' => h x x (hx x hx')⟩
  · rw [exists_eq, List.any_eq_true]
    exact ⟨fun ⟨x, h1, h2⟩ => ⟨x, x, hx x h1, h2⟩, fun ⟨k, x, h1, h2⟩ => ⟨x, ((he.get k x).mp h1).1, h2⟩⟩
  · obtain ⟨o, h1, h2, h3⟩ := findF_spec p t.table t.table.length (by omega)
    rw [List.take_length] at h2 h3
    have hm : ∀ x, x ∈ keys t ↔ ∃ b ∈ t.table, ∃ e ∈ b, e.key = x := by
      intro x
      simp only [keys, List.mem_map, List.mem_flatten]
      constructor
      · rintro ⟨e, ⟨b, k1, k2⟩, k3⟩; exact ⟨b, k1, e, k2, k3⟩
      · rintro ⟨b, k1, e, k2, k3⟩; exact ⟨e, ⟨b, k1, k2⟩, k3⟩
    refine ⟨o, h1, ?_, ?_⟩
    · intro x ho
      obtain ⟨k1, k2⟩ := h2 x ho
      exact ⟨k1, x, hx x ((hm x).mpr k2)⟩
    · intro ho k x hs
      obtain ⟨b, k1, e, k2, rfl⟩ := (hm x).mp ((he.get k x).mp hs).1
      exact h3 ho b k1 e k2

/-- distinct elements are equal to distinct elements -/
theorem pigeon (hk : Keys same hv) : ∀ (l1 l2 : List K), l1.Pairwise (fun a b => same a b = false) →
    (∀ x ∈ l1, ∃ y ∈ l2, same x y = true) → l1.length ≤ l2.length
  | [], _, _, _ => by simp
  | x :: l1, l2, hp, h => by
      obtain ⟨y, hy, hs⟩ := h x (by simp)
      obtain ⟨A, B, rfl⟩ := List.append_of_mem hy
      obtain ⟨h1, h2⟩ := List.pairwise_cons.mp hp
      have := pigeon hk l1 (A ++ B) h2 (by
        intro x' hx'
        obtain ⟨y', hy', hs'⟩ := h x' (by simp [hx'])
        refine ⟨y', ?_, hs'⟩
        simp only [List.mem_append, List.mem_cons] at hy' ⊢
        rcases hy' with hy' | rfl | hy'
        · exact Or.inl hy'
        · have := hk.trans _ _ _ hs (hk.symm _ _ hs')
          rw [h1 x' hx'] at this; cases this
        · exact Or.inr hy')
      simp at this ⊢; omega

theorem match_perm (hk : Keys same hv) : ∀ (l1 l2 : List K), l1.Pairwise (fun a b => same a b = false) →
    l2.Pairwise (fun a b => same a b = false) →
    (∀ x ∈ l1, ∃ y ∈ l2, same x y = true) → l2.length ≤ l1.length → (l1.map hv).Perm (l2.map hv)
  | [], l2, _, _, _, h => by
      have : l2 = [] := List.length_eq_zero_iff.mp (by simpa using h)
      subst this; exact .refl _
  | x :: l1, l2, hp, hq, h, hl => by
      obtain ⟨y, hy, hs⟩ := h x (by simp)
      obtain ⟨A, B, rfl⟩ := List.append_of_mem hy
      obtain ⟨h1, h2⟩ := List.pairwise_cons.mp hp
      have hq' : (A ++ B).Pairwise (fun a b => same a b = false) := by
        refine hq.sublist ?_
        exact List.Sublist.append_left (List.sublist_cons_self y B) A
      have := match_perm hk l1 (A ++ B) h2 hq' (by
        intro x' hx'
        obtain ⟨y', hy', hs'⟩ := h x' (by simp [hx'])
        refine ⟨y', ?_, hs'⟩
        simp only [List.mem_append, List.mem_cons] at hy' ⊢
        rcases hy' with hy' | rfl | hy'
        · exact Or.inl hy'
        · have := hk.trans _ _ _ hs (hk.symm _ _ hs')
          rw [h1 x' hx'] at this; cases this
        · exact Or.inr hy') (by simp at hl ⊢; omega)
      rw [List.map_cons, List.map_append, List.map_cons, hk.hash _ _ hs]
      rw [List.map_append] at this
      exact (this.cons _).trans List.perm_middle.symm

theorem subset_iff (hk : Keys same hv) {hv2 : K → BitVec 63} {t1 t2 : HSet K} {S1 S2 : FSet K} (r1 : Is same hv t1 S1) (r2 : Is same hv2 t2 S2) :
    isSubset same t1 t2 = true ↔ ∀ k, (S1 k).isSome = true → (S2 k).isSome = true := by
  have e1 := r1.enum
  have e2 := r2.enum
  simp only [isSubset, Bool.and_eq_true, decide_eq_true_eq, all_eq, exists_eq, List.all_eq_true, List.any_eq_true]
  constructor
  · rintro ⟨_, h⟩ k hs
    obtain ⟨x, hx, hsx⟩ := (e1.isSome k).mp hs
    obtain ⟨y, hy, hsy⟩ := h x hx
    exact (e2.isSome k).mpr ⟨y, hy, hk.trans _ _ _ hsx hsy⟩
  · intro h
    have h' : ∀ x ∈ keys t1, ∃ y ∈ keys t2, same x y = true :=
      fun x hx => (e2.isSome x).mp (h x ((e1.isSome x).mpr ⟨x, hx, hk.refl x⟩))
    refine ⟨?_, h'⟩
    rw [r1.count, r2.count]
    exact_mod_cast pigeon hk _ _ e1.once h'

/-- **C79** `isSubset` and `equal` compare sets of the same equality, whatever their hash functions and histories. -/
theorem C79_subset (hv1 hv2 : K → BitVec 63) (hk1 : Keys same hv1) (hk2 : Keys same hv2) {t1 t2 : HSet K} {S1 S2 : FSet K}
    (h1 : Reached hv1 same t1 S1) (h2 : Reached hv2 same t2 S2) :
    (isSubset same t1 t2 = true ↔ ∀ k, (S1 k).isSome = true → (S2 k).isSome = true) ∧
    (equal same same t1 t2 = true ↔ ∀ k, (S1 k).isSome = (S2 k).isSome) := by
  have r1 := reached_is hk1 h1
  have r2 := reached_is hk2 h2
  have s1 := subset_iff hk1 r1 r2
  have s2 := subset_iff hk2 r2 r1
  refine ⟨s1, ?_⟩
  simp only [equal, Bool.and_eq_true, decide_eq_true_eq]
  rw [s1, s2]
  constructor
  · rintro ⟨⟨_, a⟩, b⟩ k
    rw [Bool.eq_iff_iff]
    exact ⟨a k, b k⟩
  · intro h
    have a : ∀ k, (S1 k).isSome = true → (S2 k).isSome = true := fun k => by rw [h k]; exact id
    have b : ∀ k, (S2 k).isSome = true → (S1 k).isSome = true := fun k => by rw [h k]; exact id
    refine ⟨⟨?_, a⟩, b⟩
    have c1 := s1.mpr a
    have c2 := s2.mpr b
    simp only [isSubset, Bool.and_eq_true, decide_eq_true_eq] at c1 c2
    omega

theorem perm_sum {a b : List (BitVec 63)} (p : a.Perm b) : a.sum = b.sum := by
  induction p with
  | nil => rfl
  | cons x _ ih => rw [List.sum_cons, List.sum_cons, ih]
  | swap x y l => simp only [List.sum_cons]; ac_rfl
  | trans _ _ i1 i2 => rw [i1, i2]

theorem hashLoop_eq (b : List (Item K)) : ∀ s, hashLoop b s = (b.map (fun e => e.h)).sum + s := by
  induction b with
  | nil => intro s; simp [hashLoop]
  | cons e r ih => intro s; simp [hashLoop, ih]; ac_rfl

theorem hash_eq {t : HSet K} {S : FSet K} (r : Is same hv t S) : hash t = ((keys t).map hv).sum := by
  have hp : ∀ b ∈ t.table, ∀ e ∈ b, e.h = hv e.key := by
    intro b hb e he
    obtain ⟨i, hi, rfl⟩ := List.getElem_of_mem hb
    exact (Rel.placed r i hi e he).1
  unfold hash keys
  revert hp
  induction t.table with
  | nil => intro _; rfl
  | cons b l ih =>
    intro hp
    rw [List.foldr_cons, ih (fun b hb => hp b (by simp [hb])), hashLoop_eq, List.flatten_cons, List.map_append, List.map_append, List.sum_append]
    congr 2
    rw [List.map_map]
    exact List.map_congr_left (fun e he => hp b (by simp) e he)

/-- **C79** `hash` is the sum of the hash codes of the elements; equal sets have equal hash codes. -/
theorem C79_hash (hk : Keys same hv) {t : HSet K} {S : FSet K} (h : Reached hv same t S) :
    (∃ l, Enumerates same l S ∧ hash t = (l.map hv).sum) ∧
    ∀ {t2 : HSet K} {S2 : FSet K}, Reached hv same t2 S2 → equal same same t t2 = true → hash t = hash t2 := by
  have r := reached_is hk h
  refine ⟨⟨keys t, r.enum, hash_eq r⟩, ?_⟩
  intro t2 S2 h2 he
  have r2 := reached_is hk h2
  have hs := (C79_subset hv hv hk hk h h2).2.mp he
  have e1 := r.enum
  have e2 := r2.enum
  have f : ∀ x ∈ keys t, ∃ y ∈ keys t2, same x y = true :=
    fun x hx => (e2.isSome x).mp (by rw [← hs]; exact (e1.isSome x).mpr ⟨x, hx, hk.refl x⟩)
  have g : ∀ x ∈ keys t2, ∃ y ∈ keys t, same x y = true :=
    fun x hx => (e1.isSome x).mp (by rw [hs]; exact (e2.isSome x).mpr ⟨x, hx, hk.refl x⟩)
  rw [hash_eq r, hash_eq r2]
  exact perm_sum (match_perm hk _ _ e1.once e2.once f (pigeon hk _ _ e2.once g))

/-- **C79** A copy is the same set. -/
theorem C79_copy (hk : Keys same hv) {t : HSet K} {S : FSet K} (h : Reached hv same t S) : ∃ t', copy t = .ok t' ∧ Reached hv same t' S := by
  have r := reached_is hk h
  refine ⟨t, ?_, h⟩
  have := Rel.len r
  simp [copy, Polyhash.mkArray_ok _ this, bind, Except.bind, copyArr]

example : ∃ t : HSet Nat, Reached (fun a => BitVec.ofNat 63 (a % 2)) (fun a b => a % 10 == b % 10) t
    ((FSet.add (fun a b => a % 10 == b % 10) FSet.empty 3).add (fun a b => a % 10 == b % 10) 13) := by
  obtain ⟨t, h1, _⟩ := empty_is (K := Nat) (same := fun a b => a % 10 == b % 10) (hv := fun a => BitVec.ofNat 63 (a % 2))
  exact ⟨_, t, [.add 3, .add 13], h1, by decide, rfl, rfl⟩

end Mosml.Hash.Hashset
