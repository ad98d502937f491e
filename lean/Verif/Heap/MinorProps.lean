import Verif.Heap.MinorOldify

/-! C25: the minor collection. -/
namespace Mosml.Minor

/-- some of the slots, those of `done`, have been treated -/
structure Run (Y : Nat → Option Blk) (s : St) (done : List Slot) (t : St) (g : Nat → Option Nat) : Prop where
  inv : Inv Y t g
  todo : ∀ p v, load s p = some v → p ∉ done → load t p = some v
  did : ∀ p v, load s p = some v → p ∈ done → load t p = some (image g v) ∧ Moved g v
  old : ∀ a b, s.old a = some b → ∃ b', t.old a = some b' ∧ b'.tag = b.tag ∧ b'.words.length = b.words.length
  fresh : ∀ y a, g y = some a → s.old a = none ∧
    ∃ b b', Y y = some b ∧ t.old a = some b' ∧ b'.tag = b.tag ∧ b'.words = newWords g b ∧
      (b.tag < noScan → ∀ w ∈ b.words, Moved g w)
  only : ∀ a, s.old a = none → t.old a ≠ none → ∃ y, g y = some a

theorem image_image (f g : Nat → Option Nat) {v : Val} (h : Moved f v) : image g (image f v) = image f v := by
  cases v with
  | young y =>
    have : f y ≠ none := h
    obtain ⟨a, ha⟩ := Option.ne_none_iff_exists'.mp this
    simp [image, ha]
  | _ => rfl

theorem moved_image (f g : Nat → Option Nat) {v : Val} (h : Moved f v) : Moved g (image f v) := by
  cases v with
  | young y =>
    have : f y ≠ none := h
    obtain ⟨a, ha⟩ := Option.ne_none_iff_exists'.mp this
    simp [image, ha, Moved]
  | _ => trivial

theorem load_frame {Y s f p v t g} (q : Post Y s f p v t g) {p' : Slot} (hne : p' ≠ p) {w : Val} (h : load s p' = some w) :
    load t p' = some w := by
  cases p' with
  | root i =>
    have := q.roots i hne
    simp only [load] at h ⊢; rw [this]; exact h
  | field a k =>
    simp only [load] at h ⊢
    cases hb : s.old a with
    | none => rw [hb] at h; simp at h
    | some b =>
      obtain ⟨b', e1, _, _, e4⟩ := q.frame a b hb
      rw [hb] at h; rw [e1]
      simpa only [Option.bind_some, e4 k hne] using h

theorem load_field {t : St} {a k : Nat} {b : Blk} {v : Val} (h : t.old a = some b) (hl : load t (.field a k) = some v) :
    b.words[k]? = some v := by
  simpa only [load, h, Option.bind_some] using hl

variable (pick : (Nat → Option Blk) → Nat)

theorem run_step {Y : Nat → Option Blk} (yo : YoungOk Y) (hpick : Picks pick) (ys : List Nat) (hys : ∀ y, Y y ≠ none → y ∈ ys)
    {s : St} {done : List Slot} {t : St} {g : Nat → Option Nat} (r : Run Y s done t g) (p : Slot) (v : Val)
    (hv : load s p = some v) (hval : Valid Y v) (fuel : Nat) (hf : ys.length < fuel) :
    ∃ g', Run Y s (p :: done) (oldify pick fuel t p ((load t p).getD (.imm 0))) g' := by
  have hleft : left ys g < fuel := by
    have : left ys g ≤ ys.length := List.length_filter_le _ _
    omega
  -- the value in the slot now
  have hcur : ∃ w, load t p = some w ∧ Valid Y w ∧ (∀ g', (∀ y a, g y = some a → g' y = some a) → image g' w = image g' v) ∧
      (∀ g', (∀ y a, g y = some a → g' y = some a) → Moved g' w → Moved g' v) := by
    by_cases hd : p ∈ done
    · obtain ⟨h1, h2⟩ := r.did p v hv hd
      refine ⟨_, h1, ?_, ?_, ?_⟩
      · cases v with
        | young y =>
          have : g y ≠ none := h2
          obtain ⟨a, ha⟩ := Option.ne_none_iff_exists'.mp this
          simp [image, ha, Valid]
        | _ => trivial
      · intro g' hg
        rw [image_image g g' h2, image_ext hg h2]
      · intro g' hg _
        exact h2.ext hg
    · exact ⟨v, r.todo p v hv hd, hval, fun _ _ => rfl, fun _ _ h => h⟩
  obtain ⟨w, hw, hwv, himg, hmov⟩ := hcur
  rw [hw]
  simp only [Option.getD_some]
  obtain ⟨g', q⟩ := oldify_post pick yo hpick ys hys fuel t g p w r.inv (by rw [hw]; simp) hwv hleft
  refine ⟨g', q.inv, ?_, ?_, ?_, ?_, ?_⟩
  · intro p' v' h hn
    simp only [List.mem_cons, not_or] at hn
    exact load_frame q hn.1 (r.todo p' v' h hn.2)
  · intro p' v' h hm
    by_cases e : p' = p
    · subst e
      rw [hv] at h
      obtain rfl := Option.some.inj h
      exact ⟨by rw [q.slot (by rw [hw]; simp), himg g' q.ext], hmov g' q.ext q.moved⟩
    · have hm' : p' ∈ done := by
        rcases List.mem_cons.mp hm with h | h
        · exact absurd h e
        · exact h
      obtain ⟨h1, h2⟩ := r.did p' v' h hm'
      exact ⟨by rw [load_frame q e h1, image_ext q.ext h2], h2.ext q.ext⟩
  · intro a b hb
    obtain ⟨b', e1, e2, e3⟩ := r.old a b hb
    obtain ⟨b2, d1, d2, d3, _⟩ := q.frame a b' e1
    exact ⟨b2, d1, d2.trans e2, d3.trans e3⟩
  · intro y a hy
    cases hg : g y with
    | none =>
      obtain ⟨u1, u2⟩ := q.fresh y a hg hy
      refine ⟨?_, u2⟩
      by_contra hcon
      obtain ⟨c, hc⟩ := Option.ne_none_iff_exists'.mp hcon
      obtain ⟨c', e1, _⟩ := r.old a c hc
      rw [u1] at e1; exact absurd e1 (by simp)
    | some a' =>
      have e := q.ext y a' hg
      rw [hy] at e
      obtain rfl := Option.some.inj e
      obtain ⟨u1, c, c', v1, v2, v3, v4, v5⟩ := r.fresh y a hg
      obtain ⟨c2, d1, d2, d3, d4⟩ := q.frame a c' v2
      refine ⟨u1, c, c2, v1, d1, d2.trans v3, ?_, fun h w hw => (v5 h w hw).ext q.ext⟩
      rw [newWords_ext q.ext v5, ← v4]
      refine List.ext_getElem? (fun k => d4 k ?_)
      rintro rfl
      simp [load, u1] at hv
  · intro a h1 h2
    by_cases ht : t.old a = none
    · obtain ⟨x, x1, x2⟩ := q.only a ht h2
      exact ⟨x, x2⟩
    · obtain ⟨x, x2⟩ := r.only a h1 ht
      exact ⟨x, q.ext x a x2⟩

theorem run_all {Y : Nat → Option Blk} (yo : YoungOk Y) (hpick : Picks pick) (ys : List Nat) (hys : ∀ y, Y y ≠ none → y ∈ ys)
    {s : St} (fuel : Nat) (hf : ys.length < fuel) (ps : List Slot) : ∀ (done : List Slot) (t : St) (g : Nat → Option Nat),
    Run Y s done t g → (∀ p ∈ ps, ∃ v, load s p = some v ∧ Valid Y v) →
    ∃ g' done', Run Y s done' (ps.foldl (fun s p => oldify pick fuel s p ((load s p).getD (.imm 0))) t) g' ∧
      ∀ p, p ∈ done' ↔ p ∈ done ∨ p ∈ ps := by
  induction ps with
  | nil => intro done t g r _; exact ⟨g, done, r, by simp⟩
  | cons p ps ih =>
    intro done t g r hps
    obtain ⟨v, hv, hval⟩ := hps p (by simp)
    obtain ⟨g', r'⟩ := run_step pick yo hpick ys hys r p v hv hval fuel hf
    obtain ⟨g2, d2, r2, h2⟩ := ih (p :: done) _ g' r' (fun q hq => hps q (by simp [hq]))
    refine ⟨g2, d2, r2, ?_⟩
    intro q
    rw [h2 q]
    simp only [List.mem_cons]
    tauto

/-- the heap before a collection: finitely many young blocks, none forwarded or empty; no dangling young pointer; and the
table has every field that points to the young generation -/
structure Before (s : St) (nroots : Nat) (rt : List Slot) (ys : List Nat) : Prop where
  fin : ∀ y, s.young y ≠ none → y ∈ ys
  finOld : ∃ l : List Nat, ∀ a, s.old a ≠ none → a ∈ l
  notBlue : ∀ y b, s.young y = some b → b.blue = false
  ok : YoungOk s.young
  rootsOk : ∀ i, i < nroots → Valid s.young (s.roots i)
  rtOk : ∀ p ∈ rt, ∃ v, load s p = some v ∧ Valid s.young v
  rtAll : ∀ a b k y, s.old a = some b → b.tag < noScan → b.words[k]? = some (.young y) → .field a k ∈ rt

/-- C25: a minor collection moves young blocks to unused places of the old generation, no two to the same; roots, the fields of old
blocks and those of moved blocks are what they were, up to the moves; old blocks stay in place; nothing else appears in the old
generation. -/
theorem C25_minor (hpick : Picks pick) {s : St} {nroots : Nat} {rt : List Slot} {ys : List Nat} (hb : Before s nroots rt ys)
    (fuel : Nat) (hf : ys.length < fuel) :
    ∃ f : Nat → Option Nat, let s' := minorCollection pick fuel s nroots rt
      (∀ y y' a, f y = some a → f y' = some a → y = y') ∧
      (∀ i, i < nroots → s'.roots i = image f (s.roots i) ∧ Moved f (s.roots i)) ∧
      (∀ a b, s.old a = some b → ∃ b', s'.old a = some b' ∧ b'.tag = b.tag ∧ b'.words.length = b.words.length ∧
        (∀ k v, b.words[k]? = some v → b'.words[k]? = some (if .field a k ∈ rt then image f v else v)) ∧
        (b.tag < noScan → b'.words = b.words.map (image f) ∧ ∀ v ∈ b.words, Moved f v)) ∧
      (∀ y a, f y = some a → s.old a = none ∧ ∃ b b', s.young y = some b ∧ s'.old a = some b' ∧ b'.tag = b.tag ∧
        b'.words = (if noScan ≤ b.tag then b.words else b.words.map (image f)) ∧
        (b.tag < noScan → ∀ v ∈ b.words, Moved f v)) ∧
      (∀ a, s'.old a ≠ none → s.old a ≠ none ∨ ∃ y, f y = some a) ∧ (∀ y, s'.young y = none) := by
  -- before
  have r0 : Run s.young s [] s (fun _ => none) := by
    refine ⟨⟨?_, by simp, by simp, by simp, hb.finOld⟩, fun _ _ h _ => h, by simp, fun a b h => ⟨b, h, rfl, rfl⟩, by simp, fun a h1 h2 => absurd h1 h2⟩
    intro y
    simp only [youngNow]
    cases hy : s.young y with
    | none => rfl
    | some b =>
      simp only [Option.map_some]
      rw [← hb.notBlue y b hy]
  have hroots : ∀ t : St, (List.range nroots).foldl (fun s i => oldify pick fuel s (.root i) (s.roots i)) t =
      ((List.range nroots).map Slot.root).foldl (fun s p => oldify pick fuel s p ((load s p).getD (.imm 0))) t := by
    intro t
    rw [List.foldl_map]
    rfl
  obtain ⟨g1, d1, r1, h1⟩ := run_all pick hb.ok hpick ys hb.fin fuel hf ((List.range nroots).map Slot.root) [] s _ r0 (by
    intro p hp
    obtain ⟨i, hi, rfl⟩ := List.mem_map.mp hp
    exact ⟨s.roots i, rfl, hb.rootsOk i (List.mem_range.mp hi)⟩)
  obtain ⟨g, d2, r2, h2⟩ := run_all pick hb.ok hpick ys hb.fin fuel hf rt d1 _ g1 r1 hb.rtOk
  rw [← hroots] at r2
  refine ⟨g, r2.inv.inj, ?_, ?_, ?_, ?_, fun _ => rfl⟩
  · intro i hi
    have hm : Slot.root i ∈ d2 := (h2 _).mpr (Or.inl ((h1 _).mpr (Or.inr (List.mem_map.mpr ⟨i, List.mem_range.mpr hi, rfl⟩))))
    obtain ⟨e, m⟩ := r2.did (.root i) (s.roots i) rfl hm
    exact ⟨Option.some.inj e, m⟩
  · intro a b hab
    obtain ⟨b', e1, e2, e3⟩ := r2.old a b hab
    have hmem : ∀ k, Slot.field a k ∈ d2 ↔ Slot.field a k ∈ rt := by
      intro k
      rw [h2, h1]
      simp
    have hw : ∀ k v, b.words[k]? = some v → b'.words[k]? = some (if .field a k ∈ rt then image g v else v) := by
      intro k v hk
      have hl : load s (.field a k) = some v := by simp [load, hab, hk]
      by_cases hrt : Slot.field a k ∈ rt
      · rw [if_pos hrt]
        have := (r2.did _ v hl ((hmem k).mpr hrt)).1
        exact load_field e1 this
      · rw [if_neg hrt]
        have := r2.todo _ v hl (fun h => hrt ((hmem k).mp h))
        exact load_field e1 this
    refine ⟨b', e1, e2, e3, hw, ?_⟩
    intro ht
    have hnot : ∀ k v, b.words[k]? = some v → Slot.field a k ∉ rt → image g v = v ∧ Moved g v := by
      intro k v hk hn
      cases v with
      | young y => exact absurd (hb.rtAll a b k y hab ht hk) hn
      | _ => exact ⟨rfl, trivial⟩
    refine ⟨?_, ?_⟩
    · refine List.ext_getElem? (fun k => ?_)
      rw [List.getElem?_map]
      cases hk : b.words[k]? with
      | none =>
        rw [List.getElem?_eq_none_iff] at hk
        rw [List.getElem?_eq_none (by omega)]; rfl
      | some v =>
        rw [hw k v hk]
        by_cases hrt : Slot.field a k ∈ rt
        · rw [if_pos hrt]; rfl
        · rw [if_neg hrt, Option.map_some, (hnot k v hk hrt).1]
    · intro v hv
      obtain ⟨k, hk, e⟩ := List.getElem_of_mem hv
      have hk' : b.words[k]? = some v := by rw [List.getElem?_eq_getElem hk, e]
      by_cases hrt : Slot.field a k ∈ rt
      · exact (r2.did (.field a k) v (by simp [load, hab, hk']) ((hmem k).mpr hrt)).2
      · exact (hnot k v hk' hrt).2
  · intro y a hy
    exact r2.fresh y a hy
  · intro a ha
    by_cases h : s.old a = none
    · right; exact r2.only a h ha
    · left; exact h

/-! ### What the program sees -/

/-- the block a value points to -/
def blockOf (s : St) : Val → Option Blk
  | .young y => s.young y
  | .old a => s.old a
  | _ => none

/-- the value reached from `v` by selecting fields -/
def follow (s : St) : Val → List Nat → Option Val
  | v, [] => some v
  | v, k :: ks => do
    let b ← blockOf s v
    if b.tag < noScan then
      let w ← b.words[k]?
      follow s w ks
    else none

/-- old pointers lead to blocks -/
structure Closed (s : St) (nroots : Nat) : Prop where
  roots : ∀ i a, i < nroots → s.roots i = .old a → s.old a ≠ none
  old : ∀ a b c, s.old a = some b → b.tag < noScan → .old c ∈ b.words → s.old c ≠ none
  young : ∀ y b c, s.young y = some b → b.tag < noScan → .old c ∈ b.words → s.old c ≠ none

/-- C25: whatever path of fields the program follows from a root, it meets the same integers, and blocks of the same tag and size (and
the same words if the block is not scanned), after a collection as before; and two paths lead to the same block after it if and only if
they did before; no path leads into the young generation any more. -/
theorem C25_paths (hpick : Picks pick) {s : St} {nroots : Nat} {rt : List Slot} {ys : List Nat} (hb : Before s nroots rt ys)
    (hc : Closed s nroots) (fuel : Nat) (hf : ys.length < fuel) :
    let s' := minorCollection pick fuel s nroots rt
    (∀ i path, i < nroots →
      match follow s (s.roots i) path, follow s' (s'.roots i) path with
      | none, none => True
      | some v, some v' =>
        (∀ y, v' ≠ .young y) ∧
        (∀ n, v = .imm n ↔ v' = .imm n) ∧ (∀ n, v = .ext n ↔ v' = .ext n) ∧ (∀ a, v = .old a → v' = .old a) ∧
        (∀ b, blockOf s v = some b → ∃ b', blockOf s' v' = some b' ∧ b'.tag = b.tag ∧ b'.words.length = b.words.length ∧
          (noScan ≤ b.tag → rt = [] → b'.words = b.words))
      | _, _ => False) ∧
    (∀ i j p q v w v' w', i < nroots → j < nroots → follow s (s.roots i) p = some v → follow s (s.roots j) q = some w →
      follow s' (s'.roots i) p = some v' → follow s' (s'.roots j) q = some w' → (v = w ↔ v' = w')) := by
  intro s'
  obtain ⟨f, hinj, hroots, hold, hyoung, honly, hempty⟩ := C25_minor pick hpick hb fuel hf
  -- a value met: moved, not dangling
  let Met : Val → Prop := fun v => Moved f v ∧ ∀ a, v = .old a → s.old a ≠ none
  have hblock : ∀ v, Met v → ∀ b, blockOf s v = some b → ∃ b', blockOf s' (image f v) = some b' ∧ b'.tag = b.tag ∧
      b'.words.length = b.words.length ∧ (b.tag < noScan → b'.words = b.words.map (image f) ∧ ∀ w ∈ b.words, Met w) ∧
      (noScan ≤ b.tag → rt = [] → b'.words = b.words) := by
    intro v hv b hvb
    cases v with
    | imm n => simp [blockOf] at hvb
    | ext n => simp [blockOf] at hvb
    | old a =>
      simp only [blockOf] at hvb
      obtain ⟨b', e1, e2, e3, e4, e5⟩ := hold a b hvb
      refine ⟨b', e1, e2, e3, fun ht => ⟨(e5 ht).1, fun w hw => ⟨(e5 ht).2 w hw, fun c hcw => hc.old a b c hvb ht (hcw ▸ hw)⟩⟩, ?_⟩
      rintro _ rfl
      refine List.ext_getElem? (fun k => ?_)
      cases hk : b.words[k]? with
      | none => rw [List.getElem?_eq_none_iff] at hk ⊢; omega
      | some w => rw [e4 k w hk]; simp
    | young y =>
      have : f y ≠ none := hv.1
      obtain ⟨a, ha⟩ := Option.ne_none_iff_exists'.mp this
      obtain ⟨u1, c, b', v1, v2, v3, v4, v5⟩ := hyoung y a ha
      simp only [blockOf] at hvb
      rw [hvb] at v1
      obtain rfl := Option.some.inj v1
      have himg : image f (.young y) = .old a := by simp [image, ha]
      refine ⟨b', by rw [himg]; exact v2, v3, ?_, ?_, ?_⟩
      · rw [v4]; split <;> simp
      · intro ht
        rw [if_neg (by omega)] at v4
        exact ⟨v4, fun w hw => ⟨v5 ht w hw, fun c hcw => hc.young y b c hvb ht (hcw ▸ hw)⟩⟩
      · intro ht _
        rw [if_pos ht] at v4; exact v4
  have hnone : ∀ v, Met v → blockOf s v = none → blockOf s' (image f v) = none := by
    intro v hv hn
    cases v with
    | imm n => rfl
    | ext n => rfl
    | old a => exact absurd hn (hv.2 a rfl)
    | young y =>
      have : f y ≠ none := hv.1
      obtain ⟨a, ha⟩ := Option.ne_none_iff_exists'.mp this
      obtain ⟨_, c, b', v1, _⟩ := hyoung y a ha
      simp only [blockOf] at hn
      rw [hn] at v1; exact absurd v1 (by simp)
  have hfollow : ∀ path v, Met v → follow s' (image f v) path = (follow s v path).map (image f) ∧
      ∀ w, follow s v path = some w → Met w := by
    intro path
    induction path with
    | nil => intro v hv; exact ⟨rfl, fun w hw => by simp only [follow, Option.some.injEq] at hw; rw [← hw]; exact hv⟩
    | cons k ks ih =>
      intro v hv
      cases hvb : blockOf s v with
      | none => simp [follow, hvb, hnone v hv hvb]
      | some b =>
        obtain ⟨b', e1, e2, e3, e4, _⟩ := hblock v hv b hvb
        simp only [follow, hvb, e1, Option.bind_eq_bind, Option.bind_some, e2]
        by_cases ht : b.tag < noScan
        · obtain ⟨e5, e6⟩ := e4 ht
          rw [if_pos ht, if_pos ht, e5, List.getElem?_map]
          cases hk : b.words[k]? with
          | none => simp
          | some w =>
            have hm : w ∈ b.words := List.mem_of_getElem? hk
            simp only [Option.map_some, Option.bind_some]
            exact ih w (e6 w hm)
        · rw [if_neg ht, if_neg ht]; simp
  have hmetroot : ∀ i, i < nroots → Met (s.roots i) := fun i hi => ⟨(hroots i hi).2, fun a ha => hc.roots i a hi ha⟩
  have himginj : ∀ v w, Met v → Met w → image f v = image f w → v = w := by
    intro v w hv hw e
    have key : ∀ u, Met u → (∃ y a, u = .young y ∧ f y = some a ∧ image f u = .old a ∧ s.old a = none) ∨
        (image f u = u ∧ ∀ a, u = .old a → s.old a ≠ none) := by
      intro u hu
      cases u with
      | young y =>
        have : f y ≠ none := hu.1
        obtain ⟨a, ha⟩ := Option.ne_none_iff_exists'.mp this
        exact Or.inl ⟨y, a, rfl, ha, by simp [image, ha], (hyoung y a ha).1⟩
      | imm n => exact Or.inr ⟨rfl, hu.2⟩
      | old n => exact Or.inr ⟨rfl, hu.2⟩
      | ext n => exact Or.inr ⟨rfl, hu.2⟩
    rcases key v hv with ⟨y, a, e1, e2, e3, e4⟩ | ⟨e1, e2⟩ <;> rcases key w hw with ⟨y', a', d1, d2, d3, d4⟩ | ⟨d1, d2⟩
    · rw [e3, d3] at e
      have : a = a' := by simpa using e
      subst this
      rw [e1, d1, hinj y y' a e2 d2]
    · rw [e3, d1] at e
      exact absurd e4 (d2 a e.symm)
    · rw [e1, d3] at e
      exact absurd d4 (e2 a' e)
    · rw [e1, d1] at e; exact e
  refine ⟨?_, ?_⟩
  · intro i path hi
    have hm := hmetroot i hi
    obtain ⟨h1, h2⟩ := hfollow path _ hm
    have hr : s'.roots i = image f (s.roots i) := (hroots i hi).1
    rw [hr, h1]
    cases hv : follow s (s.roots i) path with
    | none => simp
    | some v =>
      have hvm := h2 v hv
      simp only [Option.map_some]
      refine ⟨?_, ?_, ?_, ?_, ?_⟩
      · intro y e
        cases v with
        | young z =>
          have : f z ≠ none := hvm.1
          obtain ⟨a, ha⟩ := Option.ne_none_iff_exists'.mp this
          simp [image, ha] at e
        | _ => simp [image] at e
      · intro n
        cases v with
        | young z =>
          have : f z ≠ none := hvm.1
          obtain ⟨a, ha⟩ := Option.ne_none_iff_exists'.mp this
          simp [image, ha]
        | _ => simp [image]
      · intro n
        cases v with
        | young z =>
          have : f z ≠ none := hvm.1
          obtain ⟨a, ha⟩ := Option.ne_none_iff_exists'.mp this
          simp [image, ha]
        | _ => simp [image]
      · intro a e; rw [e]; rfl
      · intro b hvb
        obtain ⟨b', e1, e2, e3, _, e5⟩ := hblock v hvm b hvb
        exact ⟨b', e1, e2, e3, e5⟩
  · intro i j p q v w v' w' hi hj hv hw hv' hw'
    obtain ⟨h1, h2⟩ := hfollow p _ (hmetroot i hi)
    obtain ⟨h3, h4⟩ := hfollow q _ (hmetroot j hj)
    have hr : s'.roots i = image f (s.roots i) := (hroots i hi).1
    have hr2 : s'.roots j = image f (s.roots j) := (hroots j hj).1
    rw [hr, h1, hv] at hv'
    rw [hr2, h3, hw] at hw'
    simp only [Option.map_some, Option.some.injEq] at hv' hw'
    rw [← hv', ← hw']
    exact ⟨fun e => by rw [e], himginj v w (h2 v hv) (h4 w hw)⟩

/-! ### The table -/

/-- every field of an old block that points to the young generation is in the table -/
def TableOk (s : St) (rt : List Slot) : Prop :=
  ∀ a b k y, s.old a = some b → b.tag ≤ noScan → b.words[k]? = some (.young y) → .field a k ∈ rt

/-- C25: assignments through `Modify` and `initialize` keep the table complete, and so does a collection, which empties it. -/
theorem C25_table (s : St) (rt : List Slot) (h : TableOk s rt) (a k : Nat) (v : Val) :
    TableOk (modify s rt (.field a k) v).1 (modify s rt (.field a k) v).2 ∧
    TableOk (initField s rt (.field a k) v).1 (initField s rt (.field a k) v).2 := by
  -- where a young pointer is after the store
  have key : ∀ a' b' k' y, (store s (.field a k) v).old a' = some b' → b'.tag ≤ noScan → b'.words[k']? = some (.young y) →
      (a' = a ∧ k' = k ∧ v = .young y ∧ ∃ b, s.old a = some b ∧ b.tag ≤ noScan) ∨ .field a' k' ∈ rt := by
    intro a' b' k' y h1 h2 h3
    by_cases ha : a' = a
    · subst ha
      cases hb : s.old a' with
      | none => simp [store, hb] at h1
      | some b =>
        simp only [store, hb, updF_same, Option.map_some, Option.some.injEq] at h1
        subst h1
        by_cases hk : k' = k
        · subst hk
          left
          refine ⟨rfl, rfl, ?_, b, rfl, h2⟩
          rw [List.getElem?_set] at h3
          simp only [if_true] at h3
          split at h3
          · simpa using h3
          · simp at h3
        · right
          refine h a' b k' y hb h2 ?_
          rw [List.getElem?_set_ne (Ne.symm hk)] at h3
          exact h3
    · right
      refine h a' b' k' y ?_ h2 h3
      simpa [store, updF_ne _ _ ha] using h1
  refine ⟨?_, ?_⟩
  · intro a' b' k' y h1 h2 h3
    have hmono : ∀ p ∈ rt, p ∈ (modify s rt (.field a k) v).2 := by
      intro p hp
      unfold modify
      dsimp only
      split
      · split <;> simp [hp]
      · exact hp
    rcases key a' b' k' y h1 h2 h3 with ⟨rfl, rfl, rfl, b, hb, ht⟩ | hm
    · unfold modify
      dsimp only
      cases hl : load s (.field a' k') with
      | none => simp
      | some w =>
        cases w with
        | young z =>
          have hz := hl
          simp only [load, hb, Option.bind_some] at hz
          have := h a' b k' z hb ht hz
          simp [this]
        | _ => simp
    · exact hmono _ hm
  · intro a' b' k' y h1 h2 h3
    unfold initField
    dsimp only
    rcases key a' b' k' y h1 h2 h3 with ⟨rfl, rfl, rfl, _⟩ | hm
    · simp
    · split <;> simp [hm]

/-- C25: after a collection the old generation has no pointer to the young one, so the empty table is complete -/
theorem C25_table_after (hpick : Picks pick) {s : St} {nroots : Nat} {rt : List Slot} {ys : List Nat} (hb : Before s nroots rt ys)
    (fuel : Nat) (hf : ys.length < fuel) (a : Nat) (b : Blk) (h : (minorCollection pick fuel s nroots rt).old a = some b)
    (ht : b.tag < noScan) (y : Nat) : .young y ∉ b.words := by
  obtain ⟨f, hinj, hroots, hold, hyoung, honly, hempty⟩ := C25_minor pick hpick hb fuel hf
  have hno : ∀ ws : List Val, (∀ v ∈ ws, Moved f v) → .young y ∉ ws.map (image f) := by
    intro ws hm hmem
    obtain ⟨v, hv, e⟩ := List.mem_map.mp hmem
    cases v with
    | young z =>
      have : f z ≠ none := hm _ hv
      obtain ⟨a, ha⟩ := Option.ne_none_iff_exists'.mp this
      simp [image, ha] at e
    | _ => simp [image] at e
  rcases honly a (by rw [h]; simp) with h1 | ⟨x, hx⟩
  · obtain ⟨c, hc⟩ := Option.ne_none_iff_exists'.mp h1
    obtain ⟨b', e1, e2, _, _, e5⟩ := hold a c hc
    rw [h] at e1
    obtain rfl := Option.some.inj e1
    obtain ⟨e6, e7⟩ := e5 (by omega)
    rw [e6]; exact hno _ e7
  · obtain ⟨_, c, b', v1, v2, v3, v4, v5⟩ := hyoung x a hx
    rw [h] at v2
    obtain rfl := Option.some.inj v2
    rw [if_neg (by omega)] at v4
    rw [v4]; exact hno _ (v5 (by omega))

/-! ### The hypotheses can be met -/

open Classical in
/-- some unused address -/
noncomputable def pickAny (h : Nat → Option Blk) : Nat := if e : ∃ a, h a = none then e.choose else 0

example : Picks pickAny := by
  intro h ⟨l, hl⟩
  have e : ∃ a, h a = none := by
    refine ⟨l.foldl Nat.max 0 + 1, ?_⟩
    by_contra hcon
    have hm := hl _ hcon
    have hle : ∀ (l : List Nat) (n x : Nat), x ≤ n ∨ x ∈ l → x ≤ l.foldl Nat.max n := by
      intro l
      induction l with
      | nil => intro n x hx; simpa using hx
      | cons y ys ih =>
        intro n x hx
        refine ih _ x ?_
        rcases hx with hx | hx
        · left; exact Nat.le_trans hx (Nat.le_max_left _ _)
        · rcases List.mem_cons.mp hx with rfl | hx
          · left; exact Nat.le_max_right _ _
          · right; exact hx
    have := hle l 0 _ (Or.inr hm)
    omega
  rw [pickAny, dif_pos e]
  exact e.choose_spec

/-- two young blocks that point to each other, a young string, and garbage; an old block that points to one of them -/
def s0 : St where
  young := fun y =>
    if y = 1 then some ⟨0, false, [.imm 5, .young 2]⟩ else if y = 2 then some ⟨1, false, [.young 1, .young 3, .old 10]⟩
    else if y = 3 then some ⟨253, false, [.imm 77]⟩ else if y = 4 then some ⟨0, false, [.young 4]⟩ else none
  old := fun a => if a = 10 then some ⟨0, false, [.young 2, .imm 1]⟩ else none
  roots := fun i => if i = 0 then .young 1 else if i = 1 then .old 10 else .imm 0

/-- the first unused address below 100 -/
def pick100 (h : Nat → Option Blk) : Nat := ((List.range 100).find? (fun a => (h a).isNone)).getD 0

example : Before s0 2 [.field 10 0] [1, 2, 3, 4] where
  fin := by intro y; simp only [s0]; split_ifs <;> simp [*]
  finOld := ⟨[10], by intro a; simp only [s0]; split_ifs <;> simp [*]⟩
  notBlue := by intro y b; simp only [s0]; split_ifs <;> rintro ⟨⟩ <;> rfl
  ok := by
    refine ⟨?_, ?_⟩
    · intro y b; simp only [s0]; split_ifs <;> rintro ⟨⟩ <;> simp
    · intro y b; simp only [s0]; split_ifs <;> rintro ⟨⟩ <;> simp [Valid, noScan, s0]
  rootsOk := by intro i hi; simp only [s0]; split_ifs <;> simp [Valid]
  rtOk := by intro p hp; simp only [List.mem_singleton] at hp; subst hp; exact ⟨.young 2, by simp [load, s0], by simp [Valid, s0]⟩
  rtAll := by
    intro a b k y h _ hk
    simp only [s0] at h
    split_ifs at h with ha
    obtain rfl := Option.some.inj h
    rcases k with _ | _ | k
    · simp [ha]
    · simp at hk
    · simp at hk

example : Closed s0 2 where
  roots := by
    intro i a hi h
    have : a = 10 := by
      simp only [s0] at h
      split_ifs at h <;> simp_all
    subst this; simp [s0]
  old := by
    intro a b c h _ hc
    simp only [s0] at h
    split_ifs at h
    obtain rfl := Option.some.inj h
    simp at hc
  young := by
    intro y b c h _ hc
    have : c = 10 := by
      simp only [s0] at h
      split_ifs at h <;> obtain rfl := Option.some.inj h <;> simp_all
    subst this; simp [s0]

example : (minorCollection pick100 5 s0 2 [.field 10 0]).roots 0 = .old 0 ∧
    (minorCollection pick100 5 s0 2 [.field 10 0]).old 0 = some ⟨0, false, [.imm 5, .old 1]⟩ ∧
    (minorCollection pick100 5 s0 2 [.field 10 0]).old 1 = some ⟨1, false, [.old 0, .old 2, .old 10]⟩ ∧
    (minorCollection pick100 5 s0 2 [.field 10 0]).old 2 = some ⟨253, false, [.imm 77]⟩ ∧
    (minorCollection pick100 5 s0 2 [.field 10 0]).old 10 = some ⟨0, false, [.old 1, .imm 1]⟩ ∧
    (minorCollection pick100 5 s0 2 [.field 10 0]).old 3 = none := by decide +kernel

example : follow s0 (s0.roots 1) [0, 0, 1, 1] = some (.young 3) := by decide +kernel

example : TableOk s0 [.field 10 0] := by
  intro a b k y h _ hk
  simp only [s0] at h
  split_ifs at h with ha
  obtain rfl := Option.some.inj h
  rcases k with _ | _ | k
  · simp [ha]
  · simp at hk
  · simp at hk

end Mosml.Minor
