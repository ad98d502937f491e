import Verif.Zam.Sim3

/-!
# Lifting
-/

namespace Mosml.Zam

/-- The free variables of a function under `m` variables. -/
structure FvOk (m : Nat) (fv : List Int) : Prop where
  sorted : fv.Pairwise (· > ·)
  neg : ∀ id ∈ fv, id < 0 ∧ -(m : Int) ≤ id

theorem mem_ins {x y : Int} : ∀ {l : List Int}, y ∈ ins x l ↔ y = x ∨ y ∈ l := by
  intro l
  induction l with
  | nil => simp [ins]
  | cons z r ih =>
    simp only [ins]
    split
    · simp
    · split
      · rename_i _ h
        subst h
        simp
      · simp only [List.mem_cons, ih]
        tauto

theorem ins_sorted {x : Int} : ∀ {l : List Int}, l.Pairwise (· > ·) → (ins x l).Pairwise (· > ·) := by
  intro l
  induction l with
  | nil => intro _; simp [ins]
  | cons z r ih =>
    intro h
    rw [List.pairwise_cons] at h
    simp only [ins]
    split
    · rename_i hx
      rw [List.pairwise_cons]
      refine ⟨?_, List.pairwise_cons.mpr h⟩
      intro y hy
      simp only [List.mem_cons] at hy
      rcases hy with rfl | hy
      · exact hx
      · have := h.1 y hy; omega
    · split
      · exact List.pairwise_cons.mpr h
      · rw [List.pairwise_cons]
        refine ⟨?_, ih h.2⟩
        intro y hy
        rcases mem_ins.mp hy with rfl | hy
        · omega
        · exact h.1 y hy

theorem extClo_mem {x y : Int} {l : List Int} : y ∈ extClo x l ↔ (y = x ∧ x < 0) ∨ y ∈ l := by
  unfold extClo
  split
  · constructor
    · exact .inr
    · rintro (⟨_, h⟩ | h)
      · omega
      · exact h
  · rw [mem_ins]
    constructor
    · rintro (h | h)
      · exact .inl ⟨h, by omega⟩
      · exact .inr h
    · rintro (⟨h, _⟩ | h)
      · exact .inl h
      · exact .inr h

theorem extClo_ok {m : Nat} {x : Int} {l : List Int} (h : FvOk m l) (hx : -(m : Int) ≤ x) :
    FvOk m (extClo x l) := by
  constructor
  · unfold extClo
    split
    · exact h.sorted
    · exact ins_sorted h.sorted
  · intro y hy
    rcases extClo_mem.mp hy with ⟨rfl, h1⟩ | h1
    · exact ⟨h1, hx⟩
    · exact h.neg y h1

theorem foldl_mem {y : Int} : ∀ {xs l : List Int},
    y ∈ xs.foldl (fun fv id => extClo id fv) l ↔ (y ∈ xs ∧ y < 0) ∨ y ∈ l := by
  intro xs
  induction xs with
  | nil => intro l; simp
  | cons x xs ih =>
    intro l
    simp only [List.foldl_cons, ih, extClo_mem, List.mem_cons]
    constructor
    · rintro (⟨h1, h2⟩ | ⟨h1, h2⟩ | h1)
      · exact .inl ⟨.inr h1, h2⟩
      · exact .inl ⟨.inl h1, by omega⟩
      · exact .inr h1
    · rintro (⟨h1 | h1, h2⟩ | h1)
      · exact .inr (.inl ⟨h1, by omega⟩)
      · exact .inl ⟨h1, h2⟩
      · exact .inr (.inr h1)

theorem foldl_ok {m : Nat} : ∀ {xs l : List Int}, FvOk m l → (∀ x ∈ xs, -(m : Int) ≤ x) →
    FvOk m (xs.foldl (fun fv id => extClo id fv) l) := by
  intro xs
  induction xs with
  | nil => intro l h _; exact h
  | cons x xs ih =>
    intro l h hx
    exact ih (extClo_ok h (hx x (by simp))) (fun y hy => hx y (by simp [hy]))

/-- What lifting does to its state. -/
structure Step (m : Nat) (s s' : LSt) : Prop where
  lbl : s.lbl ≤ s'.lbl
  funs : ∃ new, s'.funs = new ++ s.funs ∧ (new.map Func.lbl).Nodup ∧
    (∀ f ∈ new, s.lbl < f.lbl ∧ f.lbl ≤ s'.lbl) ∧
    ∀ f ∈ new, ∀ T, (∀ g ∈ s'.funs, g ∈ T) → ∃ m b, Lifts T m f.fv f.nargs false b f.body
  fv : ∀ id ∈ s.fv, id ∈ s'.fv
  ok : FvOk m s.fv → FvOk m s'.fv

theorem step_refl (m s) : Step m s s :=
  ⟨Nat.le_refl _, ⟨[], rfl, by simp, by simp, by simp⟩, fun _ h => h, fun h => h⟩

theorem Step.trans {m s s' s''} (h : Step m s s') (h' : Step m s' s'') : Step m s s'' := by
  obtain ⟨n1, a1, a2, a3, a4⟩ := h.funs
  obtain ⟨n2, b1, b2, b3, b4⟩ := h'.funs
  have l1 := h.lbl
  have l2 := h'.lbl
  refine ⟨by omega, ⟨n2 ++ n1, by rw [b1, a1, List.append_assoc], ?_, ?_, ?_⟩,
    fun id hi => h'.fv id (h.fv id hi), fun hh => h'.ok (h.ok hh)⟩
  · rw [List.map_append, List.nodup_append]
    refine ⟨b2, a2, ?_⟩
    intro x hx y hy hxy
    simp only [List.mem_map] at hx hy
    obtain ⟨f, hf, rfl⟩ := hx
    obtain ⟨g, hg, rfl⟩ := hy
    have := b3 f hf
    have := a3 g hg
    omega
  · intro f hf
    simp only [List.mem_append] at hf
    rcases hf with hf | hf
    · have := b3 f hf; omega
    · have := a3 f hf; omega
  · intro f hf T hT
    simp only [List.mem_append] at hf
    rcases hf with hf | hf
    · exact b4 f hf T hT
    · refine a4 f hf T (fun g hg => hT g ?_)
      rw [b1]
      simp [hg]

theorem Step.mem {m s s'} (h : Step m s s') : ∀ f ∈ s.funs, f ∈ s'.funs := by
  obtain ⟨n, a, _⟩ := h.funs
  intro f hf
  rw [a]
  simp [hf]

/-- The lifted term, for every list of functions and of free variables that
contain those found. -/
def Lifted (m d : Nat) (sf : Bool) (e e' : Lam) (s' : LSt) : Prop :=
  ∀ T fv, (∀ f ∈ s'.funs, f ∈ T) → (∀ id ∈ s'.fv, id ∈ fv) → Lifts T m fv d sf e e'

theorem Lifted.step {m d sf e e' s s'} (h : Lifted m d sf e e' s) (hs : Step m s s') :
    Lifted m d sf e e' s' :=
  fun T fv h1 h2 => h T fv (fun f hf => h1 f (hs.mem f hf)) (fun id hi => h2 id (hs.fv id hi))

theorem nest_of {b : Lam} (h : ∀ c, b ≠ .fn c) : nest b = 0 ∧ strip b = b := by
  cases b <;> first | exact ⟨rfl, rfl⟩ | exact absurd rfl (h _)

theorem lft_inFn : ∀ (b : Lam) (d : Nat) (s : LSt),
    lft d true b s = lft (d + nest b) false (strip b) s := by
  intro b
  induction b using nest.induct with
  | case1 b ih =>
    intro d s
    rw [lft.eq_def]
    simp only [if_true, nest, strip]
    rw [ih]
    congr 1
    omega
  | case2 b h =>
    intro d s
    obtain ⟨h1, h2⟩ := nest_of h
    rw [h1, h2, Nat.add_zero]
    cases b <;> first | exact absurd rfl (h _) | rfl | (rw [lft.eq_def]; rw [lft.eq_def])

theorem ok_strip : ∀ {b : Lam} {d : Nat}, Ok d false b → Ok (d + nest b) false (strip b) := by
  intro b
  induction b using nest.induct with
  | case1 b ih =>
    intro d h
    cases h with
    | fn h =>
      have := ih h
      simp only [nest, strip]
      rwa [show d + (nest b + 1) = d + 1 + nest b by omega]
  | case2 b hb =>
    intro d h
    obtain ⟨h1, h2⟩ := nest_of hb
    rw [h1, h2]
    exact h

theorem size_strip : ∀ b : Lam, sizeOf (strip b) ≤ sizeOf b := by
  intro b
  induction b using nest.induct with
  | case1 b ih => simp only [strip, Lam.fn.sizeOf_spec]; omega
  | case2 b hb => rw [(nest_of hb).2]

theorem lftList_ok {m d : Nat} {sf : Bool} : ∀ (es : List Lam),
    (∀ e ∈ es, ∀ s, Step m s (lft d false e s).2 ∧ Lifted m d sf e (lft d false e s).1 (lft d false e s).2) →
    ∀ s, Step m s (lftList d es s).2 ∧ (lftList d es s).1.length = es.length ∧
      ∀ (i : Nat) e e', es[i]? = some e → (lftList d es s).1[i]? = some e' →
        Lifted m d sf e e' (lftList d es s).2 := by
  intro es
  induction es with
  | nil => intro _ s; simp only [lftList]; exact ⟨step_refl _ _, by simp, by simp⟩
  | cons e es ih =>
    intro h s
    simp only [lftList]
    obtain ⟨h1, h2⟩ := h e (by simp) s
    obtain ⟨g1, g2, g3⟩ := ih (fun e he => h e (by simp [he])) (lft d false e s).2
    refine ⟨h1.trans g1, by simp [g2], ?_⟩
    intro i a a' ha ha'
    cases i with
    | zero => cases ha; cases ha'; exact h2.step g1
    | succ i => exact g3 i a a' ha ha'

theorem lftArgs_ok {m : Nat} {sf : Bool} : ∀ (es : List Lam) (d : Nat),
    (∀ (i : Nat) e, es[i]? = some e → ∀ s, Step m s (lft (d + i) false e s).2 ∧
      Lifted m (d + i) sf e (lft (d + i) false e s).1 (lft (d + i) false e s).2) →
    ∀ s, Step m s (lftArgs d es s).2 ∧ (lftArgs d es s).1.length = es.length ∧
      ∀ (i : Nat) e e', es[i]? = some e → (lftArgs d es s).1[i]? = some e' →
        Lifted m (d + i) sf e e' (lftArgs d es s).2 := by
  intro es
  induction es with
  | nil => intro d _ s; simp only [lftArgs]; exact ⟨step_refl _ _, by simp, by simp⟩
  | cons e es ih =>
    intro d h s
    simp only [lftArgs]
    obtain ⟨h1, h2⟩ := h 0 e rfl s
    obtain ⟨g1, g2, g3⟩ := ih (d + 1) (fun i e he => by
      have := h (i + 1) e he
      rwa [show d + (i + 1) = d + 1 + i by omega] at this) (lft d false e s).2
    refine ⟨h1.trans g1, by simp [g2], ?_⟩
    intro i a a' ha ha'
    cases i with
    | zero => cases ha; cases ha'; exact h2.step g1
    | succ i =>
      have := g3 i a a' ha ha'
      rwa [show d + 1 + i = d + (i + 1) by omega] at this

theorem size_get {es : List Lam} {i : Nat} {e : Lam} (h : es[i]? = some e) : sizeOf e < sizeOf es :=
  List.sizeOf_lt_of_mem (List.mem_of_getElem? h)

theorem ok_primOk {d sf p args} (h : Ok d sf (.prim p args)) : primOk p args.length = true := by
  cases h with
  | makeblock h1 h2 => simp only [primOk, decide_eq_true_eq]; exact List.length_pos_iff.mpr h1
  | _ => rfl

theorem ok_args {d sf p args} (h : Ok d sf (.prim p args)) : ∀ e ∈ args, Ok d sf e := by
  cases h with
  | makeblock h1 h2 => exact h2
  | field h => intro e he; simp only [List.mem_singleton] at he; subst he; exact h
  | raise h => intro e he; simp only [List.mem_singleton] at he; subst he; exact h
  | not h => intro e he; simp only [List.mem_singleton] at he; subst he; exact h
  | identity h => intro e he; simp only [List.mem_singleton] at he; subst he; exact h
  | test h h' =>
    intro e he; simp only [List.mem_cons, List.not_mem_nil, or_false] at he
    rcases he with rfl | rfl
    · exact h
    · exact h'
  | arith h h' =>
    intro e he; simp only [List.mem_cons, List.not_mem_nil, or_false] at he
    rcases he with rfl | rfl
    · exact h
    · exact h'

theorem lft_ok : ∀ (N : Nat) (e : Lam), sizeOf e < N → ∀ m d sf, Ok (m + d) sf e → ∀ s,
    Step m s (lft d false e s).2 ∧ Lifted m d sf e (lft d false e s).1 (lft d false e s).2 := by
  intro N
  induction N with
  | zero => intro e h; omega
  | succ N ih =>
    intro e he m d sf hok s
    cases e with
    | var i =>
      cases hok with
      | @var _ _ i hi =>
        simp only [lft]
        refine ⟨⟨Nat.le_refl _, ⟨[], rfl, by simp, by simp, by simp⟩, ?_, ?_⟩, ?_⟩
        · intro id h; exact extClo_mem.mpr (.inr h)
        · intro h; exact extClo_ok h (by omega)
        · intro T fv h1 h2
          refine .var hi ?_
          intro hle
          exact h2 _ (extClo_mem.mpr (.inl ⟨rfl, by omega⟩))
    | const c =>
      simp only [lft]
      exact ⟨step_refl _ _, fun T fv _ _ => .const⟩
    | fn b =>
      cases hok with
      | fn hb =>
        have hb' := ok_strip hb
        simp only [Lam.fn.sizeOf_spec] at he
        have hsz := size_strip b
        rw [show m + d + 1 + nest b = (m + d) + (1 + nest b) by omega] at hb'
        obtain ⟨g1, g2⟩ := ih (strip b) (by omega) (m + d) (1 + nest b) false hb'
          { fv := [], lbl := s.lbl, funs := s.funs }
        rw [lft.eq_def]
        simp only [Bool.false_eq_true, if_false]
        rw [lft_inFn]
        generalize lft (1 + nest b) false (strip b) { fv := [], lbl := s.lbl, funs := s.funs } = r at g1 g2 ⊢
        have hfv : FvOk (m + d) r.2.fv := g1.ok ⟨.nil, by simp⟩
        obtain ⟨new, n1, n2, n3, n4⟩ := g1.funs
        have hl := g1.lbl
        simp only at n1 n3 hl
        refine ⟨⟨by simp only; omega, ⟨_ :: new, by simp only [n1]; rfl, ?_, ?_, ?_⟩, ?_, ?_⟩, ?_⟩
        · simp only [List.map_cons, List.nodup_cons]
          refine ⟨?_, n2⟩
          intro hh
          simp only [List.mem_map] at hh
          obtain ⟨f, hf, hfe⟩ := hh
          have := n3 f hf
          omega
        · intro f hf
          simp only [List.mem_cons] at hf
          rcases hf with rfl | hf
          · exact ⟨by simp only; omega, by simp only; omega⟩
          · have := n3 f hf
            exact ⟨this.1, by simp only; omega⟩
        · intro f hf T hT
          simp only [List.mem_cons] at hf
          rcases hf with rfl | hf
          · refine ⟨m + d, strip b, ?_⟩
            have := g2 T r.2.fv (fun f hf => hT f (by simp [hf])) (fun _ h => h)
            rwa [Nat.add_comm 1] at this
          · exact n4 f hf T (fun g hg => hT g (by simp [hg]))
        · intro id hi; exact foldl_mem.mpr (.inr hi)
        · intro hok
          refine foldl_ok hok ?_
          intro x hx
          simp only [List.mem_map] at hx
          obtain ⟨y, hy, rfl⟩ := hx
          have := (hfv.neg y hy).2
          push_cast at this
          omega
        · intro T fv h1 h2
          have hmem := h1 ⟨r.2.lbl + 1, nest b + 1, r.2.fv, r.1⟩ (by simp)
          have := Lifts.fn (T := T) (m := m) (fv := fv) (d := d) (sf := sf) (b := b) hmem rfl ?_ ?_ hfv.sorted ?_
          · simpa only [List.map_map, Function.comp_def,
              show ∀ id : Int, (d : Int) - (-1 - id) - 1 = (d : Int) + id from fun id => by omega] using this
          · have := g2 T r.2.fv (fun f hf => h1 f (by simp [hf])) (fun _ h => h)
            rwa [Nat.add_comm 1] at this
          · exact hfv.neg
          · intro id hi hneg
            refine h2 _ (foldl_mem.mpr (.inl ⟨?_, hneg⟩))
            simp only [List.mem_map]
            exact ⟨id, hi, by omega⟩
    | apply f args =>
      cases hok with
      | apply h1 h2 h3 =>
        simp only [Lam.apply.sizeOf_spec] at he
        simp only [lft]
        obtain ⟨g1, g2⟩ := ih f (by omega) m d sf h2 s
        obtain ⟨q1, q2, q3⟩ := lftList_ok (m := m) (d := d) (sf := sf) args (fun e hm s =>
          ih e (by have := List.sizeOf_lt_of_mem hm; omega) m d sf (h3 e hm) s) (lft d false f s).2
        refine ⟨g1.trans q1, ?_⟩
        intro T fv t1 t2
        exact .apply h1 (g2.step q1 T fv t1 t2) q2 (fun i a a' ha ha' => q3 i a a' ha ha' T fv t1 t2)
    | lett args body =>
      simp only [Lam.lett.sizeOf_spec] at he
      rw [lft.eq_def]
      dsimp only
      cases hok with
      | lett h1 h2 h3 =>
        split
        · rename_i arg p
          simp only [List.cons.sizeOf_spec, List.nil.sizeOf_spec] at he
          obtain ⟨g1, g2⟩ := ih arg (by omega) m d sf (h1 0 arg rfl) s
          refine ⟨g1, ?_⟩
          intro T fv t1 t2
          exact .lett1 (ok_primOk h3) (g2 T fv t1 t2)
        · rename_i hne
          obtain ⟨q1, q2, q3⟩ := lftArgs_ok (m := m) (sf := sf) args d (fun i e hi s =>
            ih e (by have := size_get hi; omega) m (d + i) sf (by rw [← Nat.add_assoc]; exact h1 i e hi) s) s
          obtain ⟨g1, g2⟩ := ih body (by omega) m (d + args.length) sf
            (by rw [← Nat.add_assoc]; exact h3) (lftArgs d args s).2
          refine ⟨q1.trans g1, ?_⟩
          intro T fv t1 t2
          refine .lett ?_ q2 (fun i a a' ha ha' => (q3 i a a' ha ha').step g1 T fv t1 t2) (g2 T fv t1 t2)
          unfold idOf
          split
          · rename_i heq; cases heq
          · rename_i a heq
            cases heq
            exact absurd rfl (hne _ _ rfl)
          · rfl
    | letrec fs body =>
      cases hok with
      | letrec h1 h2 h3 h4 =>
        simp only [Lam.letrec.sizeOf_spec] at he
        simp only [lft]
        obtain ⟨q1, q2, q3⟩ := lftList_ok (m := m) (d := d + fs.length) (sf := false) fs (fun e hm s =>
          ih e (by have := List.sizeOf_lt_of_mem hm; omega) m (d + fs.length) false
            (by rw [← Nat.add_assoc]; exact h3 e hm) s) s
        obtain ⟨g1, g2⟩ := ih body (by omega) m (d + fs.length) sf
          (by rw [← Nat.add_assoc]; exact h4) (lftList (d + fs.length) fs s).2
        refine ⟨q1.trans g1, ?_⟩
        intro T fv t1 t2
        exact .letrec h1 q2 h2 (fun i a a' ha ha' => (q3 i a a' ha ha').step g1 T fv t1 t2) (g2 T fv t1 t2)
    | prim p args =>
      simp only [Lam.prim.sizeOf_spec] at he
      simp only [lft]
      obtain ⟨q1, q2, q3⟩ := lftList_ok (m := m) (d := d) (sf := sf) args (fun e hm s =>
        ih e (by have := List.sizeOf_lt_of_mem hm; omega) m d sf (ok_args hok e hm) s) s
      refine ⟨q1, ?_⟩
      intro T fv t1 t2
      exact .prim (ok_primOk hok) q2 (fun i a a' ha ha' => q3 i a a' ha ha' T fv t1 t2)
    | staticfail =>
      simp only [lft]
      cases hok
      exact ⟨step_refl _ _, fun T fv _ _ => .staticfail⟩
    | statichandle a b =>
      cases hok with
      | statichandle h1 h2 =>
        simp only [Lam.statichandle.sizeOf_spec] at he
        simp only [lft]
        obtain ⟨g1, g2⟩ := ih a (by omega) m d true h1 s
        obtain ⟨q1, q2⟩ := ih b (by omega) m d sf h2 (lft d false a s).2
        exact ⟨g1.trans q1, fun T fv t1 t2 => .statichandle (g2.step q1 T fv t1 t2) (q2 T fv t1 t2)⟩
    | handle a b =>
      cases hok with
      | handle h1 h2 =>
        simp only [Lam.handle.sizeOf_spec] at he
        simp only [lft]
        obtain ⟨g1, g2⟩ := ih a (by omega) m d false h1 s
        obtain ⟨q1, q2⟩ := ih b (by omega) m (d + 1) sf (by rw [← Nat.add_assoc]; exact h2) (lft d false a s).2
        exact ⟨g1.trans q1, fun T fv t1 t2 => .handle (g2.step q1 T fv t1 t2) (q2 T fv t1 t2)⟩
    | cond c a b =>
      cases hok with
      | cond h0 h1 h2 =>
        simp only [Lam.cond.sizeOf_spec] at he
        simp only [lft]
        obtain ⟨f1, f2⟩ := ih c (by omega) m d sf h0 s
        obtain ⟨g1, g2⟩ := ih a (by omega) m d sf h1 (lft d false c s).2
        obtain ⟨q1, q2⟩ := ih b (by omega) m d sf h2 (lft d false a (lft d false c s).2).2
        exact ⟨(f1.trans g1).trans q1, fun T fv t1 t2 =>
          .cond (f2.step (g1.trans q1) T fv t1 t2) (g2.step q1 T fv t1 t2) (q2 T fv t1 t2)⟩
    | seq a b =>
      cases hok with
      | seq h1 h2 =>
        simp only [Lam.seq.sizeOf_spec] at he
        simp only [lft]
        obtain ⟨g1, g2⟩ := ih a (by omega) m d sf h1 s
        obtain ⟨q1, q2⟩ := ih b (by omega) m d sf h2 (lft d false a s).2
        exact ⟨g1.trans q1, fun T fv t1 t2 => .seq (g2.step q1 T fv t1 t2) (q2 T fv t1 t2)⟩
    | andalso a b =>
      cases hok with
      | andalso h1 h2 =>
        simp only [Lam.andalso.sizeOf_spec] at he
        simp only [lft]
        obtain ⟨g1, g2⟩ := ih a (by omega) m d sf h1 s
        obtain ⟨q1, q2⟩ := ih b (by omega) m d sf h2 (lft d false a s).2
        exact ⟨g1.trans q1, fun T fv t1 t2 => .andalso (g2.step q1 T fv t1 t2) (q2 T fv t1 t2)⟩
    | orelse a b =>
      cases hok with
      | orelse h1 h2 =>
        simp only [Lam.orelse.sizeOf_spec] at he
        simp only [lft]
        obtain ⟨g1, g2⟩ := ih a (by omega) m d sf h1 s
        obtain ⟨q1, q2⟩ := ih b (by omega) m d sf h2 (lft d false a s).2
        exact ⟨g1.trans q1, fun T fv t1 t2 => .orelse (g2.step q1 T fv t1 t2) (q2 T fv t1 t2)⟩

end Mosml.Zam
