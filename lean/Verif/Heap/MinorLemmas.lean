import Verif.Heap.Minor

namespace Mosml.Minor

@[simp] theorem updF_same {α : Type} (f : Nat → α) (a : Nat) (v : α) : updF f a v a = v := by simp [updF]

theorem updF_ne {α : Type} (f : Nat → α) {a x : Nat} (v : α) (h : x ≠ a) : updF f a v x = f x := by simp [updF, h]

/-- a value after the blocks of `f` have moved -/
def image (f : Nat → Option Nat) : Val → Val
  | .young y => match f y with
    | some a => .old a
    | none => .young y
  | v => v

/-- what becomes of the words of a block with this tag -/
def newWords (f : Nat → Option Nat) (b : Blk) : List Val := if noScan ≤ b.tag then b.words else b.words.map (image f)

/-- the value does not point to a young block that has not moved -/
def Moved (f : Nat → Option Nat) : Val → Prop
  | .young y => f y ≠ none
  | _ => True

/-- the value is not a dangling young pointer -/
def Valid (Y : Nat → Option Blk) : Val → Prop
  | .young y => Y y ≠ none
  | _ => True

/-- a young block, as it was in `Y`, in a state in which the blocks of `f` have moved -/
def youngNow (Y : Nat → Option Blk) (f : Nat → Option Nat) (y : Nat) : Option Blk :=
  (Y y).map fun b => match f y with
    | none => ⟨b.tag, false, b.words⟩
    | some a => ⟨b.tag, true, b.words.set 0 (.old a)⟩

/-- young generation `Y` at the start: no block is empty, pointers between young blocks are good -/
structure YoungOk (Y : Nat → Option Blk) : Prop where
  ne : ∀ y b, Y y = some b → b.words ≠ []
  ok : ∀ y b, Y y = some b → b.tag < noScan → ∀ v ∈ b.words, Valid Y v

structure Inv (Y : Nat → Option Blk) (s : St) (f : Nat → Option Nat) : Prop where
  young : ∀ y, s.young y = youngNow Y f y
  dom : ∀ y a, f y = some a → Y y ≠ none
  inj : ∀ y y' a, f y = some a → f y' = some a → y = y'
  alive : ∀ y a, f y = some a → s.old a ≠ none
  fin : ∃ l : List Nat, ∀ a, s.old a ≠ none → a ∈ l

/-- the outcome of moving what `v` leads to and storing in `p` -/
structure Post (Y : Nat → Option Blk) (s : St) (f : Nat → Option Nat) (p : Slot) (v : Val) (s' : St) (f' : Nat → Option Nat) :
    Prop where
  inv : Inv Y s' f'
  ext : ∀ y a, f y = some a → f' y = some a
  roots : ∀ i, .root i ≠ p → s'.roots i = s.roots i
  frame : ∀ a b, s.old a = some b → ∃ b', s'.old a = some b' ∧ b'.tag = b.tag ∧ b'.words.length = b.words.length ∧
    ∀ k, .field a k ≠ p → b'.words[k]? = b.words[k]?
  slot : load s p ≠ none → load s' p = some (image f' v)
  moved : Moved f' v
  fresh : ∀ y a, f y = none → f' y = some a → s.old a = none ∧
    ∃ b b', Y y = some b ∧ s'.old a = some b' ∧ b'.tag = b.tag ∧ b'.words = newWords f' b ∧
      (b.tag < noScan → ∀ w ∈ b.words, Moved f' w)
  only : ∀ a, s.old a = none → s'.old a ≠ none → ∃ y, f y = none ∧ f' y = some a

theorem image_ext {f f' : Nat → Option Nat} (h : ∀ y a, f y = some a → f' y = some a) {v : Val} (hv : Moved f v) :
    image f' v = image f v := by
  cases v with
  | young y =>
    have : f y ≠ none := hv
    obtain ⟨a, ha⟩ := Option.ne_none_iff_exists'.mp this
    simp only [image, ha, h y a ha]
  | _ => rfl

theorem Moved.ext {f f' : Nat → Option Nat} (h : ∀ y a, f y = some a → f' y = some a) {v : Val} (hv : Moved f v) : Moved f' v := by
  cases v with
  | young y =>
    have : f y ≠ none := hv
    obtain ⟨a, ha⟩ := Option.ne_none_iff_exists'.mp this
    show f' y ≠ none
    rw [h y a ha]; simp
  | _ => trivial

theorem newWords_ext {f f' : Nat → Option Nat} (h : ∀ y a, f y = some a → f' y = some a) {b : Blk}
    (hv : b.tag < noScan → ∀ w ∈ b.words, Moved f w) : newWords f' b = newWords f b := by
  unfold newWords
  by_cases ht : noScan ≤ b.tag
  · rw [if_pos ht, if_pos ht]
  · rw [if_neg ht, if_neg ht]
    exact List.map_congr_left (fun w hw => image_ext h (hv (by omega) w hw))

/-! ### Stores -/

theorem store_old_other (s : St) (p : Slot) (v : Val) (a : Nat) (h : ∀ k, .field a k ≠ p) : (store s p v).old a = s.old a := by
  cases p with
  | root i => rfl
  | field a' k =>
    have : a ≠ a' := by rintro rfl; exact h k rfl
    simp [store, updF_ne _ _ this]

theorem store_young (s : St) (p : Slot) (v : Val) : (store s p v).young = s.young := by cases p <;> rfl

theorem store_frame (s : St) (p : Slot) (v : Val) (a : Nat) (b : Blk) (h : s.old a = some b) :
    ∃ b', (store s p v).old a = some b' ∧ b'.tag = b.tag ∧ b'.words.length = b.words.length ∧
      ∀ k, .field a k ≠ p → b'.words[k]? = b.words[k]? := by
  cases p with
  | root i => exact ⟨b, h, rfl, rfl, fun _ _ => rfl⟩
  | field a' k =>
    by_cases e : a = a'
    · subst e
      refine ⟨{ b with words := b.words.set k v }, by simp [store, h], rfl, by simp, ?_⟩
      intro k' hk
      have : k ≠ k' := by rintro rfl; exact hk rfl
      simp only [List.getElem?_set_ne this]
    · exact ⟨b, by simp [store, updF_ne _ _ e, h], rfl, rfl, fun _ _ => rfl⟩

theorem store_none (s : St) (p : Slot) (v : Val) (a : Nat) : (store s p v).old a = none ↔ s.old a = none := by
  cases p with
  | root i => exact Iff.rfl
  | field a' k =>
    by_cases e : a = a'
    · subst e; simp [store]
    · simp [store, updF_ne _ _ e]

theorem store_roots (s : St) (p : Slot) (v : Val) (i : Nat) (h : .root i ≠ p) : (store s p v).roots i = s.roots i := by
  cases p with
  | root j =>
    have : i ≠ j := by rintro rfl; exact h rfl
    simp [store, updF_ne _ _ this]
  | field a k => rfl

theorem load_store (s : St) (p : Slot) (v : Val) (h : load s p ≠ none) : load (store s p v) p = some v := by
  cases p with
  | root i => simp [load, store]
  | field a k =>
    simp only [load, store] at h ⊢
    cases hb : s.old a with
    | none => rw [hb] at h; exact absurd rfl h
    | some b =>
      rw [hb] at h
      simp only [Option.bind_some, ne_eq] at h
      have hk : k < b.words.length := by
        by_contra hc
        exact h (List.getElem?_eq_none (by omega))
      simp [hk]

/-- storing a value that is not an unmoved young pointer -/
theorem post_store {Y s f p v v'} (i : Inv Y s f) (hm : Moved f v) (hv : v' = image f v) : Post Y s f p v (store s p v') f where
  inv := ⟨by rw [store_young]; exact i.young, i.dom, i.inj, fun y a h e => i.alive y a h ((store_none s p v' a).mp e),
    i.fin.imp (fun _ h a ha => h a (fun e => ha ((store_none s p v' a).mpr e)))⟩
  ext := fun _ _ h => h
  roots := fun j h => store_roots s p v' j h
  frame := fun a b h => store_frame s p v' a b h
  slot := fun h => by rw [load_store s p v' h, hv]
  moved := hm
  fresh := fun y a h1 h2 => by rw [h1] at h2; exact absurd h2 (by simp)
  only := fun a h1 h2 => absurd ((store_none s p v' a).mpr h1) h2

end Mosml.Minor
