import Verif.Link.Spec
import Verif.Util

namespace Mosml.Link

open Mosml.Emit (Uid Reloc SC Lk patchObject relOthers relOther relLit)

/-! ## The second pass as a backward scan of the whole program -/

def back (it : Item) (s : List Uid × List Item) : List Uid × List Item :=
  match it with
  | .phrase p =>
      if !p.pure || p.others.any (isRequired s.1) then
        (p.others.foldl addRequired (p.others.foldl removeRequired s.1), .phrase p :: s.2)
      else s
  | .publish u v => if u ∈ s.1 then (v :: s.1.filter (· ≠ u), .publish u v :: s.2) else s

theorem back_vals (n : Name) (vals : List (Name × Nat)) (m : List Uid) (E : List (Name × Nat))
    (K : List Item) :
    (vals.reverse.map fun v => Item.publish (qid n v.1, 0) (qid n v.1, v.2)).foldr back
      (m, (E.map fun v => Item.publish (qid n v.1, 0) (qid n v.1, v.2)) ++ K) =
    ((vals.foldl (scanVal n) (m, E)).1,
      ((vals.foldl (scanVal n) (m, E)).2.map fun v =>
        Item.publish (qid n v.1, 0) (qid n v.1, v.2)) ++ K) := by
  induction vals generalizing m E with
  | nil => rfl
  | cons v vals ih =>
      simp only [List.reverse_cons, List.map_append, List.map_cons, List.map_nil, List.foldr_append,
        List.foldr_cons, List.foldr_nil, List.foldl_cons]
      by_cases h : (qid n v.1, 0) ∈ m
      · have := ih ((qid n v.1, v.2) :: m.filter (· ≠ (qid n v.1, 0))) (v :: E)
        simp only [back, scanVal, h, if_true]
        simpa using this
      · simp only [back, scanVal, h, if_false]
        exact ih m E

theorem back_phrases (ps : List Phrase) (m : List Uid) (E : List Phrase) (K : List Item) :
    (ps.reverse.map Item.phrase).foldr back (m, E.map Item.phrase ++ K) =
    ((ps.foldl scanPhrase (m, E)).1, (ps.foldl scanPhrase (m, E)).2.map Item.phrase ++ K) := by
  induction ps generalizing m E with
  | nil => rfl
  | cons p ps ih =>
      simp only [List.reverse_cons, List.map_append, List.map_cons, List.map_nil, List.foldr_append,
        List.foldr_cons, List.foldr_nil, List.foldl_cons]
      by_cases h : (!p.pure || p.others.any (isRequired m)) = true
      · have := ih (p.others.foldl addRequired (p.others.foldl removeRequired m)) (p :: E)
        simp only [back, scanPhrase, h, if_true]
        simpa using this
      · simp only [back, scanPhrase, h]
        exact ih m E

theorem back_unit (u : Name × Tables) (m : List Uid) (R : List Req) :
    (unitItems u).foldr back (m, reqItems R) =
      ((scanFile (m, R) u).1, reqItems (scanFile (m, R) u).2) := by
  unfold unitItems
  rw [List.foldr_append]
  have h1 := back_vals u.1 u.2.vals m [] (reqItems R)
  simp only [List.map_nil, List.nil_append] at h1
  rw [h1]
  have h2 := back_phrases u.2.index (u.2.vals.foldl (scanVal u.1) (m, [])).1 []
    (((u.2.vals.foldl (scanVal u.1) (m, [])).2.map fun v =>
        Item.publish (qid u.1 v.1, 0) (qid u.1 v.1, v.2)) ++ reqItems R)
  simp only [List.map_nil, List.nil_append] at h2
  rw [h2]
  simp [scanFile, reqItems]

theorem back_program (toscan : List (Name × Tables)) (m : List Uid) (R : List Req) :
    (program toscan.reverse).foldr back (m, reqItems R) =
      ((toscan.foldl scanFile (m, R)).1, reqItems (toscan.foldl scanFile (m, R)).2) := by
  induction toscan generalizing m R with
  | nil => rfl
  | cons u us ih =>
      have : program (u :: us).reverse = program us.reverse ++ unitItems u := by
        simp [program, List.flatMap_append]
      rw [this, List.foldr_append, back_unit, ih]
      rfl

/-- What the linker keeps of the program. -/
def kept (is : List Item) : List Item := (is.foldr back ([], [])).2
/-- What is missing before the program. -/
def missing (is : List Item) : List Uid := (is.foldr back ([], [])).1

theorem scan_eq (toscan : List (Name × Tables)) :
    reqItems (scanFiles toscan) = kept (program toscan.reverse) := by
  have := back_program toscan [] []
  unfold kept scanFiles
  rw [show reqItems [] = [] from rfl] at this
  rw [this]

/-! ## The third pass, item by item -/

def linkItems : List Item → Lk → Option (List (List Nat × Phrase × Lk) × Lk)
  | [], lk => some ([], lk)
  | .phrase p :: is, lk =>
      (patchObject p.code 0 p.lits p.others lk).bind fun x =>
        (linkItems is x.2).map fun y => ((x.1, p, x.2) :: y.1, y.2)
  | .publish u v :: is, lk => (defineAlias u v lk).bind (linkItems is)

theorem linkItems_append (a b : List Item) (lk : Lk) :
    linkItems (a ++ b) lk = (linkItems a lk).bind fun x =>
      (linkItems b x.2).map fun y => (x.1 ++ y.1, y.2) := by
  induction a generalizing lk with
  | nil => simp [linkItems]
  | cons i a ih =>
      cases i with
      | phrase p =>
          simp only [List.cons_append, linkItems, ih]
          cases patchObject p.code 0 p.lits p.others lk with
          | none => rfl
          | some x =>
              simp only [Option.bind_some]
              cases linkItems a x.2 with
              | none => rfl
              | some y =>
                  simp only [Option.bind_some, Option.map_some]
                  cases linkItems b y.2 <;> rfl
      | publish u v =>
          simp only [List.cons_append, linkItems]
          cases defineAlias u v lk with
          | none => rfl
          | some l => simp only [Option.bind_some]; exact ih l

theorem linkPhrases_eq (ps : List Phrase) (lk : Lk) :
    linkItems (ps.map .phrase) lk = linkPhrases ps lk := by
  induction ps generalizing lk with
  | nil => rfl
  | cons p ps ih =>
      simp only [List.map_cons, linkItems, linkPhrases, ih]

theorem exportNames_eq (n : Name) (vs : List (Name × Nat)) (lk : Lk) :
    linkItems (vs.map fun v => .publish (qid n v.1, 0) (qid n v.1, v.2)) lk =
      (exportNames n vs lk).map fun l => ([], l) := by
  induction vs generalizing lk with
  | nil => rfl
  | cons v vs ih =>
      simp only [List.map_cons, linkItems, exportNames]
      cases defineAlias (qid n v.1, 0) (qid n v.1, v.2) lk with
      | none => rfl
      | some l => simp only [Option.bind_some]; exact ih l

theorem linkObject_eq (r : Req) (lk : Lk) :
    linkItems (r.required.map .phrase ++
      r.exported.map fun v => .publish (qid r.name v.1, 0) (qid r.name v.1, v.2)) lk =
      linkObject r lk := by
  rw [linkItems_append, linkPhrases_eq]
  unfold linkObject
  cases linkPhrases r.required lk with
  | none => rfl
  | some x =>
      simp only [Option.bind_some]
      rw [exportNames_eq]
      cases exportNames r.name r.exported x.2 <;> simp

theorem linkObjects_eq (rs : List Req) (lk : Lk) :
    linkItems (reqItems rs) lk = linkObjects rs lk := by
  induction rs generalizing lk with
  | nil => rfl
  | cons r rs ih =>
      have : reqItems (r :: rs) = (r.required.map .phrase ++
        r.exported.map fun v => .publish (qid r.name v.1, 0) (qid r.name v.1, v.2)) ++ reqItems rs := rfl
      rw [this, linkItems_append, linkObject_eq]
      simp only [ih, linkObjects]

/-! ## Missing globals -/

theorem mem_foldl_removeRequired {rs : List (Reloc × Nat)} {m : List Uid} {u : Uid} :
    u ∈ rs.foldl removeRequired m ↔ u ∈ m ∧ u ∉ setsOf rs := by
  induction rs generalizing m with
  | nil => simp [setsOf]
  | cons r rs ih =>
      obtain ⟨r, pos⟩ := r
      rw [List.foldl_cons, ih]
      cases r with
      | setglobal g =>
          simp only [removeRequired, List.mem_filter, decide_eq_true_eq, setsOf, List.mem_cons, not_or]
          tauto
      | getglobal g => simp [removeRequired, setsOf]
      | primitive f => simp [removeRequired, setsOf]

theorem mem_foldl_addRequired {rs : List (Reloc × Nat)} {m : List Uid} {u : Uid} :
    u ∈ rs.foldl addRequired m ↔ u ∈ m ∨ u ∈ getsOf rs := by
  induction rs generalizing m with
  | nil => simp [getsOf]
  | cons r rs ih =>
      obtain ⟨r, pos⟩ := r
      rw [List.foldl_cons, ih]
      cases r with
      | getglobal g => simp only [addRequired, List.mem_cons, getsOf]; tauto
      | setglobal g => simp [addRequired, getsOf]
      | primitive f => simp [addRequired, getsOf]

theorem any_isRequired {rs : List (Reloc × Nat)} {m : List Uid} :
    rs.any (isRequired m) = true ↔ ∃ u ∈ setsOf rs, u ∈ m := by
  induction rs with
  | nil => simp [setsOf]
  | cons r rs ih =>
      obtain ⟨r, pos⟩ := r
      rw [List.any_cons, Bool.or_eq_true, ih]
      cases r with
      | setglobal g => simp [isRequired, setsOf]
      | getglobal g => simp [isRequired, setsOf]
      | primitive f => simp [isRequired, setsOf]

theorem missing_phrase_mem {p : Phrase} {m : List Uid} {u : Uid} :
    u ∈ p.others.foldl addRequired (p.others.foldl removeRequired m) ↔
      (u ∈ m ∧ u ∉ p.sets) ∨ u ∈ p.gets := by
  rw [mem_foldl_addRequired, mem_foldl_removeRequired]; rfl

theorem mem_getsOf {rs : List (Reloc × Nat)} {u : Uid} :
    u ∈ getsOf rs ↔ ∃ pre pos post, rs = pre ++ (.getglobal u, pos) :: post := by
  induction rs with
  | nil => simp [getsOf]
  | cons r rs ih =>
      obtain ⟨r, pos⟩ := r
      have key : (∃ pre p post, (r, pos) :: rs = pre ++ (Reloc.getglobal u, p) :: post) ↔
          r = .getglobal u ∨ ∃ pre p post, rs = pre ++ (Reloc.getglobal u, p) :: post := by
        constructor
        · rintro ⟨pre, p, post, h⟩
          cases pre with
          | nil => simp only [List.nil_append, List.cons.injEq, Prod.mk.injEq] at h; exact Or.inl h.1.1
          | cons a pre =>
              simp only [List.cons_append, List.cons.injEq] at h
              exact Or.inr ⟨pre, p, post, h.2⟩
        · rintro (rfl | ⟨pre, p, post, h⟩)
          · exact ⟨[], pos, rs, rfl⟩
          · exact ⟨(r, pos) :: pre, p, post, by rw [h]; rfl⟩
      rw [key, ← ih]
      cases r with
      | getglobal g => simp only [getsOf, List.mem_cons, Reloc.getglobal.injEq]; tauto
      | setglobal g => simp [getsOf]
      | primitive f => simp [getsOf]

theorem setsOf_append (a b : List (Reloc × Nat)) : setsOf (a ++ b) = setsOf a ++ setsOf b := by
  induction a with
  | nil => rfl
  | cons r a ih =>
      obtain ⟨r, pos⟩ := r
      cases r <;> simp [setsOf, ih]

/-! ## Patching always finds the slots -/

def InjAbove (base : Nat) (lk : Lk) : Prop :=
  ∀ u u' s, base ≤ s → lk.lookup u = some s → lk.lookup u' = some s → u = u'

structure Grown (base : Nat) (S : List Uid) (a b : Lk) : Prop where
  bounded : b.Bounded
  cnt : a.cnt ≤ b.cnt
  inj : InjAbove base b
  prims : b.prims = a.prims
  old : ∀ u, u ∉ S → b.lookup u = a.lookup u
  new : ∀ u ∈ S, ∃ s, b.lookup u = some s ∧ a.cnt ≤ s

theorem relOthers_ok (off base : Nat) : ∀ (rs : List (Reloc × Nat)) (b : List Nat) (lk : Lk),
    lk.Bounded → base ≤ lk.cnt → InjAbove base lk →
    (∀ pre u pos post, rs = pre ++ (.getglobal u, pos) :: post →
      (∃ s, lk.lookup u = some s) ∨ u ∈ setsOf pre) →
    (∀ f pos, (Reloc.primitive f, pos) ∈ rs → ∃ v, lk.prims f = some v ∧ v < 65536) →
    ∃ b' lk', relOthers off rs (b, lk) = some (b', lk') ∧ Grown base (setsOf rs) lk lk' := by
  intro rs
  induction rs with
  | nil =>
      intro b lk hb hc hi _ _
      exact ⟨b, lk, rfl, hb, le_refl _, hi, rfl, fun _ _ => rfl, by simp [setsOf]⟩
  | cons r rs ih =>
      intro b lk hb hc hi hg hp
      obtain ⟨r, pos⟩ := r
      cases r with
      | getglobal g =>
          have h0 := hg [] g pos rs rfl
          simp only [setsOf, List.not_mem_nil, or_false] at h0
          obtain ⟨s, hs⟩ := h0
          obtain ⟨b', lk', h1, h2⟩ := ih (Mosml.Emit.patchLong b (pos + off) s) lk hb hc hi
            (by
              intro pre u p post h
              have := hg ((.getglobal g, pos) :: pre) u p post (by rw [h]; rfl)
              simpa [setsOf] using this)
            (fun f p h => hp f p (List.mem_cons_of_mem _ h))
          refine ⟨b', lk', ?_, ?_⟩
          · simp only [relOthers, relOther, hs, Option.map_some, Option.bind_some]; exact h1
          · simpa [setsOf] using h2
      | primitive f =>
          obtain ⟨v, hv, hlt⟩ := hp f pos (List.mem_cons_self ..)
          have hps : Mosml.Emit.patchShort b (pos + off) v =
              some ((b.set (pos + off) (Mosml.Emit.byteOf v)).set (pos + off + 1) (v / 256)) := by
            unfold Mosml.Emit.patchShort; rw [if_pos (by omega)]
          obtain ⟨b', lk', h1, h2⟩ := ih
            ((b.set (pos + off) (Mosml.Emit.byteOf v)).set (pos + off + 1) (v / 256)) lk hb hc hi
            (by
              intro pre u p post h
              have := hg ((.primitive f, pos) :: pre) u p post (by rw [h]; rfl)
              simpa [setsOf] using this)
            (fun f p h => hp f p (List.mem_cons_of_mem _ h))
          refine ⟨b', lk', ?_, ?_⟩
          · simp only [relOthers, relOther, hv, Option.bind_some, hps, Option.map_some]; exact h1
          · simpa [setsOf] using h2
      | setglobal g =>
          have hb1 := Mosml.Emit.Lk.slotSet_bounded hb g
          have hi1 : InjAbove base (lk.slotSet g).2 := by
            intro u u' s hs h1 h2
            by_cases hu : g = u <;> by_cases hu' : g = u'
            · exact hu.symm.trans hu'
            · subst hu
              rw [Mosml.Emit.Lk.slotSet_lookup] at h1
              rw [Mosml.Emit.Lk.slotSet_other _ hu'] at h2
              have := Mosml.Emit.Lk.lookup_lt hb h2
              cases h1; omega
            · subst hu'
              rw [Mosml.Emit.Lk.slotSet_lookup] at h2
              rw [Mosml.Emit.Lk.slotSet_other _ hu] at h1
              have := Mosml.Emit.Lk.lookup_lt hb h1
              cases h2; omega
            · rw [Mosml.Emit.Lk.slotSet_other _ hu] at h1
              rw [Mosml.Emit.Lk.slotSet_other _ hu'] at h2
              exact hi u u' s hs h1 h2
          obtain ⟨b', lk', h1, h2⟩ := ih (Mosml.Emit.patchLong b (pos + off) lk.cnt)
            (lk.slotSet g).2 hb1 (Nat.le_succ_of_le hc) hi1
            (by
              intro pre u p post h
              have := hg ((.setglobal g, pos) :: pre) u p post (by rw [h]; rfl)
              simp only [setsOf, List.mem_cons] at this
              by_cases hu : g = u
              · subst hu; exact Or.inl ⟨_, Mosml.Emit.Lk.slotSet_lookup lk g⟩
              · rw [Mosml.Emit.Lk.slotSet_other _ hu]
                rcases this with h | h | h
                · exact Or.inl h
                · exact absurd h.symm hu
                · exact Or.inr h)
            (fun f p h => hp f p (List.mem_cons_of_mem _ h))
          refine ⟨b', lk', ?_, ?_⟩
          · simp only [relOthers, relOther, Option.bind_some]; exact h1
          · refine ⟨h2.bounded, le_trans (Nat.le_succ _) h2.cnt, h2.inj, h2.prims, ?_, ?_⟩
            · intro u hu
              simp only [setsOf, List.mem_cons, not_or] at hu
              rw [h2.old u hu.2, Mosml.Emit.Lk.slotSet_other _ (Ne.symm hu.1)]
            · intro u hu
              by_cases h : u ∈ setsOf rs
              · obtain ⟨s, h3, h4⟩ := h2.new u h
                exact ⟨s, h3, le_trans (Nat.le_succ _) h4⟩
              · simp only [setsOf, List.mem_cons] at hu
                rcases hu with rfl | hu
                · exact ⟨lk.cnt, by rw [h2.old _ h, Mosml.Emit.Lk.slotSet_lookup], le_refl _⟩
                · exact absurd hu h

theorem relLits_ok (off : Nat) (lits : List (SC × List Nat)) : ∀ (s : List Nat × Lk), s.2.Bounded →
    (lits.foldl (relLit off) s).2.Bounded ∧ s.2.cnt ≤ (lits.foldl (relLit off) s).2.cnt ∧
    (lits.foldl (relLit off) s).2.prims = s.2.prims ∧
    (lits.foldl (relLit off) s).2.globals = s.2.globals := by
  induction lits with
  | nil => intro s h; exact ⟨h, le_refl _, rfl, rfl⟩
  | cons e lits ih =>
      intro s h
      obtain ⟨h1, h2, h3, h4⟩ := ih (relLit off s e) (Mosml.Emit.Lk.slotLit_bounded h e.1)
      exact ⟨h1, le_trans (Nat.le_succ _) h2, h3, h4⟩

theorem patch_ok {p : Phrase} {lk : Lk} (hb : lk.Bounded)
    (hg : ∀ pre u pos post, p.others = pre ++ (.getglobal u, pos) :: post →
      (∃ s, lk.lookup u = some s) ∨ u ∈ setsOf pre)
    (hp : PrimsOk lk.prims p) :
    ∃ b lk', patchObject p.code 0 p.lits p.others lk = some (b, lk') ∧
      Grown lk.cnt p.sets lk lk' := by
  obtain ⟨h1, h2, h3, h4⟩ := relLits_ok 0 p.lits (p.code, lk) hb
  have hl : ∀ u, (p.lits.foldl (relLit 0) (p.code, lk)).2.lookup u = lk.lookup u := by
    intro u; unfold Lk.lookup; rw [h4]
  obtain ⟨b', lk', h5, h6⟩ := relOthers_ok 0 lk.cnt p.others (p.lits.foldl (relLit 0) (p.code, lk)).1
    (p.lits.foldl (relLit 0) (p.code, lk)).2 h1 h2
    (by
      intro u u' s hs e1 e2
      rw [hl] at e1
      have := Mosml.Emit.Lk.lookup_lt hb e1
      omega)
    (by simpa only [hl] using hg) (by rw [h3]; exact hp)
  refine ⟨b', lk', h5, h6.bounded, le_trans h2 h6.cnt, h6.inj, h6.prims.trans h3, ?_, ?_⟩
  · intro u hu; rw [h6.old u hu, hl]
  · intro u hu
    obtain ⟨s, e1, e2⟩ := h6.new u hu
    exact ⟨s, e1, le_trans h2 e2⟩

theorem defineAlias_ok {u v : Uid} {lk : Lk} {s : Nat} (hb : lk.Bounded)
    (h : lk.lookup v = some s) :
    ∃ lk', defineAlias u v lk = some lk' ∧ lk'.Bounded ∧ lk'.prims = lk.prims ∧
      lk'.cnt = lk.cnt ∧ lk'.lookup u = some s ∧ ∀ y, y ≠ u → lk'.lookup y = lk.lookup y := by
  refine ⟨{ lk with globals := (u, s) :: lk.globals }, by simp [defineAlias, h], ⟨?_, hb.literals⟩,
    rfl, rfl, by simp [Lk.lookup], ?_⟩
  · intro e he
    simp only [List.mem_cons] at he
    rcases he with rfl | he
    · exact Mosml.Emit.Lk.lookup_lt hb h
    · exact hb.globals e he
  · intro y hy
    simp [Lk.lookup, Ne.symm hy]

/-! ## The simulation -/

theorem kept_phrase (p : Phrase) (is : List Item) :
    kept (.phrase p :: is) =
      (if !p.pure || p.others.any (isRequired (missing is)) then .phrase p :: kept is
        else kept is) ∧
    missing (.phrase p :: is) =
      (if !p.pure || p.others.any (isRequired (missing is)) then
        p.others.foldl addRequired (p.others.foldl removeRequired (missing is))
        else missing is) := by
  unfold kept missing
  rw [List.foldr_cons]
  simp only [back]
  split <;> exact ⟨rfl, rfl⟩

theorem kept_alias (u v : Uid) (is : List Item) :
    kept (.publish u v :: is) =
      (if u ∈ missing is then .publish u v :: kept is else kept is) ∧
    missing (.publish u v :: is) =
      (if u ∈ missing is then v :: (missing is).filter (· ≠ u) else missing is) := by
  unfold kept missing
  rw [List.foldr_cons]
  simp only [back]
  split <;> exact ⟨rfl, rfl⟩

/-- The tables and the memory agree with the values of the known globals still needed. -/
def Agree {V : Type} (D : Uid → Prop) (need : List Uid) (ρ : Uid → Option V) (lk : Lk)
    (M : Nat → Option V) : Prop :=
  ∀ u, u ∈ need → D u → ∃ s, lk.lookup u = some s ∧ M s = ρ u

theorem sim {V E X : Type} (B : Beh V E X) (hB : B.Local) : ∀ (is : List Item) (D : Uid → Prop)
    (ρ : Uid → Option V) (lk : Lk) (M : Nat → Option V),
    Closed D is → lk.Bounded → Agree D (missing is) ρ lk M →
    (∀ p, Item.phrase p ∈ kept is → PrimsOk lk.prims p) →
    ∃ out lk', linkItems (kept is) lk = some (out, lk') ∧
      (Silent B is ρ → runLinked B out M = run B is ρ) := by
  intro is
  induction is with
  | nil =>
      intro D ρ lk M _ _ _ _
      exact ⟨[], lk, rfl, fun _ => rfl⟩
  | cons i is ih =>
      intro D ρ lk M hc hb hA hp
      cases hc with
      | @phrase _ p _ hg hd hc =>
          obtain ⟨hk, hm⟩ := kept_phrase p is
          by_cases hreq : (!p.pure || p.others.any (isRequired (missing is))) = true
          · rw [if_pos hreq] at hk hm
            rw [hk] at hp ⊢
            rw [hm] at hA
            have hgl : ∀ pre u pos post, p.others = pre ++ (.getglobal u, pos) :: post →
                (∃ s, lk.lookup u = some s) ∨ u ∈ setsOf pre := by
              intro pre u pos post h
              rcases hg pre u pos post h with h1 | h1
              · have hu : u ∈ p.gets := mem_getsOf.2 ⟨pre, pos, post, h⟩
                obtain ⟨s, h2, _⟩ := hA u (missing_phrase_mem.2 (Or.inr hu)) h1
                exact Or.inl ⟨s, h2⟩
              · exact Or.inr h1
            obtain ⟨b, lk1, h1, h2⟩ := patch_ok hb hgl (hp p (List.mem_cons_self ..))
            have hAny : ∀ w : Uid → V, Agree (fun u => D u ∨ u ∈ p.sets) (missing is)
                (fun u => if u ∈ p.sets then some (w u) else ρ u) lk1
                (write lk1 p.sets w M) := by
              intro w u hu hDu
              by_cases hs : u ∈ p.sets
              · obtain ⟨s, e1, e2⟩ := h2.new u hs
                refine ⟨s, e1, ?_⟩
                dsimp only [write]
                rw [if_pos hs]
                cases hf : p.sets.find? (fun u => lk1.lookup u = some s) with
                | none =>
                    rw [List.find?_eq_none] at hf
                    exact absurd e1 (by simpa using hf u hs)
                | some u' =>
                    have := List.find?_some hf
                    simp only [decide_eq_true_eq] at this
                    rw [h2.inj u u' s e2 e1 this]
              · have hD : D u := hDu.resolve_right hs
                obtain ⟨s, e1, e2⟩ := hA u (missing_phrase_mem.2 (Or.inl ⟨hu, hs⟩)) hD
                refine ⟨s, by rw [h2.old u hs]; exact e1, ?_⟩
                dsimp only [write]
                rw [if_neg hs]
                cases hf : p.sets.find? (fun u => lk1.lookup u = some s) with
                | none => exact e2
                | some u' =>
                    have h3 := List.find?_some hf
                    simp only [decide_eq_true_eq] at h3
                    obtain ⟨s', e3, e4⟩ := h2.new u' (List.mem_of_find?_eq_some hf)
                    rw [h3] at e3
                    cases e3
                    have := Mosml.Emit.Lk.lookup_lt hb e1
                    omega
            have hp1 : ∀ q, Item.phrase q ∈ kept is → PrimsOk lk1.prims q := by
              intro q hq; rw [h2.prims]; exact hp q (List.mem_cons_of_mem _ hq)
            have hrd : B p (fun u => (lk1.lookup u).bind M) = B p ρ := by
              apply hB
              intro u hu hs
              obtain ⟨pre, pos, post, h⟩ := mem_getsOf.1 hu
              rcases hg pre u pos post h with h3 | h3
              · obtain ⟨s, e1, e2⟩ := hA u (missing_phrase_mem.2 (Or.inr hu)) h3
                rw [h2.old u hs, e1]; exact e2
              · exfalso; apply hs
                show u ∈ setsOf p.others
                rw [h, setsOf_append]
                exact List.mem_append_left _ h3
            cases hBp : B p ρ with
            | stop x =>
                -- the rest links as well, whatever its values
                obtain ⟨out, lk2, h3, _⟩ := ih _ (fun u => (lk1.lookup u).bind M) lk1 M hc
                  h2.bounded (by
                    intro u hu hDu
                    rcases Classical.em (u ∈ p.sets) with hs | hs
                    · obtain ⟨s, e1, _⟩ := h2.new u hs
                      exact ⟨s, e1, by simp [e1]⟩
                    · obtain ⟨s, e1, e2⟩ := hA u (missing_phrase_mem.2 (Or.inl ⟨hu, hs⟩))
                        (hDu.resolve_right hs)
                      have e3 : lk1.lookup u = some s := by rw [h2.old u hs]; exact e1
                      exact ⟨s, e3, by simp [e3]⟩) hp1
                refine ⟨(b, p, lk1) :: out, lk2, ?_, ?_⟩
                · simp only [linkItems, h1, Option.bind_some, h3, Option.map_some]
                · intro _
                  simp only [runLinked, run, hrd, hBp]
            | go es w =>
                obtain ⟨out, lk2, h3, h4⟩ := ih _ _ lk1 _ hc h2.bounded (hAny w) hp1
                refine ⟨(b, p, lk1) :: out, lk2, ?_, ?_⟩
                · simp only [linkItems, h1, Option.bind_some, h3, Option.map_some]
                · intro hS
                  simp only [runLinked, run, hrd, hBp]
                  rw [h4 (hS.2 es w hBp)]
          · rw [if_neg hreq] at hk hm
            rw [hk] at hp ⊢
            rw [hm] at hA
            simp only [Bool.or_eq_true, Bool.not_eq_true', not_or, Bool.not_eq_false] at hreq
            obtain ⟨hpure, hnone⟩ := hreq
            have hnone' : ∀ u ∈ p.sets, u ∉ missing is := by
              intro u hu hm
              exact hnone (any_isRequired.2 ⟨u, hu, hm⟩)
            have hA' : ∀ ρ' : Uid → Option V, (∀ u, u ∉ p.sets → ρ' u = ρ u) →
                Agree (fun u => D u ∨ u ∈ p.sets) (missing is) ρ' lk M := by
              intro ρ' hρ u hu hDu
              have hs : u ∉ p.sets := fun h => hnone' u h hu
              obtain ⟨s, e1, e2⟩ := hA u hu (hDu.resolve_right hs)
              exact ⟨s, e1, by rw [e2, hρ u hs]⟩
            cases hBp : B p ρ with
            | stop x =>
                obtain ⟨out, lk2, h3, _⟩ := ih _ ρ lk M hc hb (hA' ρ (fun _ _ => rfl)) hp
                refine ⟨out, lk2, h3, ?_⟩
                intro hS
                obtain ⟨w, hw⟩ := hS.1 hpure
                rw [hBp] at hw; cases hw
            | go es w =>
                obtain ⟨out, lk2, h3, h4⟩ := ih _
                  (fun u => if u ∈ p.sets then some (w u) else ρ u) lk M hc hb
                  (hA' _ (fun u hu => if_neg hu)) hp
                refine ⟨out, lk2, h3, ?_⟩
                intro hS
                obtain ⟨w', hw⟩ := hS.1 hpure
                rw [hBp] at hw
                cases hw
                rw [h4 (hS.2 _ _ hBp)]
                simp only [run, hBp, List.nil_append]
      | @publish _ u v _ hv hu hc =>
          obtain ⟨hk, hm⟩ := kept_alias u v is
          by_cases hreq : u ∈ missing is
          · rw [if_pos hreq] at hk hm
            rw [hk] at hp ⊢
            rw [hm] at hA
            obtain ⟨s, e1, e2⟩ := hA v (List.mem_cons_self ..) hv
            obtain ⟨lk1, h1, h2, h3, h4, h5, h6⟩ := defineAlias_ok (u := u) hb e1
            obtain ⟨out, lk2, h7, h8⟩ := ih _ (fun y => if y = u then ρ v else ρ y) lk1 M hc h2
              (by
                intro y hy hDy
                by_cases hyu : y = u
                · subst hyu; exact ⟨s, h5, by rw [e2]; simp⟩
                · have : y ∈ v :: (missing is).filter (· ≠ u) := by
                    apply List.mem_cons_of_mem
                    rw [List.mem_filter]
                    exact ⟨hy, by simpa using hyu⟩
                  obtain ⟨s', e3, e4⟩ := hA y this (hDy.resolve_right hyu)
                  exact ⟨s', by rw [h6 y hyu]; exact e3, by rw [e4]; simp [hyu]⟩)
              (by intro q hq; rw [h3]; exact hp q (List.mem_cons_of_mem _ hq))
            refine ⟨out, lk2, ?_, ?_⟩
            · simp only [linkItems, h1, Option.bind_some]; exact h7
            · intro hS; rw [h8 hS]; rfl
          · rw [if_neg hreq] at hk hm
            rw [hk] at hp ⊢
            rw [hm] at hA
            obtain ⟨out, lk2, h7, h8⟩ := ih _ (fun y => if y = u then ρ v else ρ y) lk M hc hb
              (by
                intro y hy hDy
                have hyu : y ≠ u := by rintro rfl; exact hreq hy
                obtain ⟨s', e3, e4⟩ := hA y hy (hDy.resolve_right hyu)
                exact ⟨s', e3, by rw [e4]; simp [hyu]⟩) hp
            exact ⟨out, lk2, h7, fun hS => by rw [h8 hS]; rfl⟩

/-! ## Only what is needed -/

theorem missing_reads : ∀ (is : List Item) (u : Uid), u ∈ missing is →
    ∃ i ∈ kept is, u ∈ i.reads := by
  intro is
  induction is with
  | nil => intro u h; simp [missing] at h
  | cons i is ih =>
      intro u hu
      cases i with
      | phrase p =>
          obtain ⟨hk, hm⟩ := kept_phrase p is
          rw [hk]; rw [hm] at hu
          split at hu
          next h =>
            rw [if_pos h]
            rcases missing_phrase_mem.1 hu with h1 | h1
            · obtain ⟨j, h2, h3⟩ := ih u h1.1
              exact ⟨j, List.mem_cons_of_mem _ h2, h3⟩
            · exact ⟨_, List.mem_cons_self .., h1⟩
          next h => rw [if_neg h]; exact ih u hu
      | publish a v =>
          obtain ⟨hk, hm⟩ := kept_alias a v is
          rw [hk]; rw [hm] at hu
          split at hu
          next h =>
            rw [if_pos h]
            rw [List.mem_cons] at hu
            rcases hu with rfl | hu
            · exact ⟨_, List.mem_cons_self .., by simp [Item.reads]⟩
            · rw [List.mem_filter] at hu
              obtain ⟨j, h2, h3⟩ := ih u hu.1
              exact ⟨j, List.mem_cons_of_mem _ h2, h3⟩
          next h => rw [if_neg h]; exact ih u hu

/-- A kept item is an impure phrase, or defines something read by a later kept item. -/
theorem kept_needed : ∀ (is : List Item) (a b : List Item) (i : Item), kept is = a ++ i :: b →
    (∃ p, i = .phrase p ∧ p.pure = false) ∨ ∃ u ∈ i.defines, ∃ j ∈ b, u ∈ j.reads := by
  intro is
  induction is with
  | nil => intro a b i h; simp [kept] at h
  | cons x is ih =>
      intro a b i h
      cases x with
      | phrase p =>
          obtain ⟨hk, -⟩ := kept_phrase p is
          rw [hk] at h
          split at h
          next hr =>
            cases a with
            | nil =>
                simp only [List.nil_append, List.cons.injEq] at h
                obtain ⟨rfl, rfl⟩ := h
                rw [Bool.or_eq_true] at hr
                rcases hr with hr | hr
                · exact Or.inl ⟨p, rfl, by simpa using hr⟩
                · obtain ⟨u, h1, h2⟩ := any_isRequired.1 hr
                  exact Or.inr ⟨u, h1, missing_reads is u h2⟩
            | cons y a =>
                simp only [List.cons_append, List.cons.injEq] at h
                exact ih a b i h.2
          next => exact ih a b i h
      | publish u v =>
          obtain ⟨hk, -⟩ := kept_alias u v is
          rw [hk] at h
          split at h
          next hr =>
            cases a with
            | nil =>
                simp only [List.nil_append, List.cons.injEq] at h
                obtain ⟨rfl, rfl⟩ := h
                exact Or.inr ⟨u, by simp [Item.defines], missing_reads is u hr⟩
            | cons y a =>
                simp only [List.cons_append, List.cons.injEq] at h
                exact ih a b i h.2
          next => exact ih a b i h

theorem kept_sublist : ∀ is : List Item, (kept is).Sublist is := by
  intro is
  induction is with
  | nil => exact List.Sublist.refl _
  | cons x is ih =>
      cases x with
      | phrase p =>
          obtain ⟨hk, -⟩ := kept_phrase p is
          rw [hk]
          split
          · exact ih.cons_cons _
          · exact ih.cons _
      | publish u v =>
          obtain ⟨hk, -⟩ := kept_alias u v is
          rw [hk]
          split
          · exact ih.cons_cons _
          · exact ih.cons _

theorem kept_impure : ∀ (is : List Item) (p : Phrase), .phrase p ∈ is → p.pure = false →
    Item.phrase p ∈ kept is := by
  intro is
  induction is with
  | nil => intro p h; simp at h
  | cons x is ih =>
      intro p h hp
      rw [List.mem_cons] at h
      cases x with
      | phrase q =>
          obtain ⟨hk, -⟩ := kept_phrase q is
          rw [hk]
          rcases h with h | h
          · cases h
            rw [if_pos (by simp [hp])]
            exact List.mem_cons_self ..
          · split
            · exact List.mem_cons_of_mem _ (ih p h hp)
            · exact ih p h hp
      | publish u v =>
          obtain ⟨hk, -⟩ := kept_alias u v is
          rw [hk]
          have h := h.resolve_left (by simp)
          split
          · exact List.mem_cons_of_mem _ (ih p h hp)
          · exact ih p h hp

end Mosml.Link
