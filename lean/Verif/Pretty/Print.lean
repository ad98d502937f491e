import Verif.Pretty.Buffer

/-!
# Printing from the left
-/

namespace Mosml.Pretty

open Mosml.Num (Str)

theorem nspaces_eq (n : Int) : nspaces n = blanks n := by
  induction h : n.toNat using Nat.strongRecOn generalizing n with
  | ind m ih =>
    rw [nspaces]
    by_cases h1 : n < 0
    · rw [dif_pos h1, blanks, show n.toNat = 0 by omega]; rfl
    · rw [dif_neg h1]
      by_cases h2 : n < 100
      · rw [dif_pos h2]; rfl
      · rw [dif_neg h2]
        simp only
        rw [ih (n / 2).toNat (by omega) (n / 2) rfl]
        simp only [blanks]
        by_cases h3 : n = 2 * (n / 2)
        · rw [if_pos h3, List.append_nil, List.replicate_append_replicate]
          congr 1; omega
        · rw [if_neg h3, List.replicate_append_replicate,
            show ([32] : Str) = List.replicate 1 32 from rfl, List.replicate_append_replicate]
          congr 1; omega

def page (s : St) : Page := ⟨s.out, s.sp, s.ist⟩

/-- What holds of pending tokens; `ls` and `rs` are the positions of their ends. -/
structure Inv (ls rs : Int) (p : List Tok) : Prop where
  wf : ∀ t ∈ p, wf t
  l1 : 1 ≤ ls
  pos : pos ls p
  sum : rs = ls + wd p
  ag : Ag (fun d => d) (fun d => d) p.reverse
  gg : GG true p

theorem Inv.tail {ls rs : Int} {t : Tok} {y : List Tok} (h : Inv ls rs (t :: y)) :
    Inv (ls + width t) rs y := by
  have hw := width_nonneg (h.wf t (by simp))
  refine ⟨fun t ht => h.wf t (List.mem_cons_of_mem _ ht), by have := h.l1; omega, h.pos.2, ?_, ?_, ?_⟩
  · rw [h.sum, wd_cons]; omega
  · have := h.ag
    rw [List.reverse_cons] at this
    exact Ag_prefix _ _ _ _ this
  · have := h.gg.2
    generalize (if unres t then isBB t else true) = b at this
    cases b with
    | true => exact this
    | false => exact GG_mono this

theorem Ag_last {t t' : Tok} (h : unres t' = true → unres t = true ∧ pcount t' = pcount t) :
    ∀ (r : List Tok) (c cu : Nat → Nat), Ag c cu (r ++ [t]) → Ag c cu (r ++ [t'])
  | [], c, cu, ha => ⟨fun hu d => by rw [(h hu).2]; exact ha.1 (h hu).1 d, trivial⟩
  | _ :: r, _, _, ha => ⟨ha.1, Ag_last h r _ _ ha.2⟩

theorem Inv.block {ls rs : Int} {P U P' U' : List Blk} {y : List Tok}
    (h : Inv ls rs (.BB P U :: y)) (hw : 0 < P'.length + U'.length) (hp : ∀ b ∈ P', b ∈ P)
    (hu : ∀ b ∈ U', b ∈ U) (hc : U' ≠ [] → P'.length = P.length) :
    Inv ls rs (.BB P' U' :: y) := by
  refine ⟨?_, h.l1, ⟨fun b hb => h.pos.1 b (hu b hb), h.pos.2⟩, h.sum, ?_, ?_⟩
  · intro t ht
    rw [List.mem_cons] at ht
    rcases ht with rfl | ht
    · exact ⟨hw, fun b hb => (h.wf (.BB P U) (by simp)).2 b (hp b hb)⟩
    · exact h.wf t (List.mem_cons_of_mem _ ht)
  · have := h.ag
    rw [List.reverse_cons] at this ⊢
    refine Ag_last ?_ _ _ _ this
    intro hu'
    have hne : U' ≠ [] := by simpa [unres] using hu'
    refine ⟨?_, hc hne⟩
    have : U ≠ [] := by
      obtain ⟨b, hb⟩ := List.exists_mem_of_ne_nil _ hne
      exact List.ne_nil_of_mem (hu b hb)
    simpa [unres] using this
  · have := h.gg.2
    refine ⟨by simp [isBR], ?_⟩
    simpa [isBB] using this

/-- How far to the right the page may reach. -/
def Qb (lw : Nat) (c : Int) (g : Page) : Prop :=
  g.sp ≤ lw + c ∧ ∀ i ∈ g.ist, ∀ cur, (i = .pack cur ∨ i = .onePer cur) → -c ≤ cur

theorem Qb.mono {lw : Nat} {c c' : Int} {g : Page} (h : Qb lw c g) (hc : c ≤ c') : Qb lw c' g :=
  ⟨by have := h.1; omega, fun i hi cur hcur => by have := h.2 i hi cur hcur; omega⟩

/-- Fuel for one call after another. -/
def Rep (s : St) (a : Nat) (p : List Tok) : Prop :=
  Buf s.N s.left s.right s.buf a p ∧ s.dst = (stk s.N a p).reverse

def lastS (p : List Tok) : Prop := ∃ str, p.getLast? = some (.S str)

theorem lastS_tail {t : Tok} {y : List Tok} (hy : y ≠ []) : lastS (t :: y) ↔ lastS y := by
  unfold lastS
  rw [List.getLast?_cons]
  cases h : y.getLast? with
  | none => simp at h; exact absurd h hy
  | some u => simp

def lp (p : List Tok) : Prop := p.length ≤ places (opsOf p)

theorem negs_append (x y : List Op) : negs (x ++ y) = negs x + negs y := by
  induction x with
  | nil => simp [negs]
  | cons o x ih =>
    cases o <;> simp only [List.cons_append, negs, ih] <;> omega

theorem negs_nonneg (x : List Op) : 0 ≤ negs x := by
  induction x with
  | nil => simp [negs]
  | cons o x ih => cases o <;> simp only [negs] <;> omega

theorem places_le (o : Op) (r : List Op) : places (o :: r) ≤ 1 + places r := by
  cases o with
  | str s => simp [places]
  | brk n o => simp [places]
  | bgn c o =>
    have e : places (.bgn c o :: r) = (match r with | .bgn _ _ :: _ => 0 | _ => 1) + places r := rfl
    rw [e]; split <;> omega
  | fin =>
    have e : places (.fin :: r) = (match r with | .fin :: _ => 0 | _ => 1) + places r := rfl
    rw [e]; split <;> omega

theorem places_bgns (r : List Op) : ∀ (l : List Blk),
    places (l.map (fun b => Op.bgn b.cons b.off) ++ r) ≤ 1 + places r
  | [] => by simp
  | [b] => by simpa using places_le _ r
  | b :: c :: l => by
      have := places_bgns r (c :: l)
      simp only [List.map_cons, List.cons_append] at this ⊢
      have e : ∀ (z z' : Bool) (w w' : Int) (q : List Op),
          places (.bgn z w :: .bgn z' w' :: q) = 0 + places (.bgn z' w' :: q) :=
        fun _ _ _ _ _ => rfl
      rw [e]
      omega

theorem places_fins (r : List Op) : ∀ (n : Nat), places (List.replicate n Op.fin ++ r) ≤ 1 + places r
  | 0 => by simp
  | 1 => by simpa using places_le _ r
  | n + 2 => by
      have := places_fins r (n + 1)
      simp only [List.replicate_succ, List.cons_append] at this ⊢
      have e : ∀ (q : List Op), places (.fin :: .fin :: q) = 0 + places (.fin :: q) := fun _ => rfl
      rw [e]
      omega

theorem places_tok (t : Tok) (r : List Op) : places (opsTok t ++ r) ≤ 1 + places r := by
  cases t with
  | S s => simp [opsTok, places]
  | BR d n o => simp [opsTok, places]
  | E p u => exact places_fins r _
  | BB P U => exact places_bgns r _

theorem lp_tail {t : Tok} {y : List Tok} (h : lp (t :: y)) : lp y := by
  unfold lp at *
  have := places_tok t (opsOf y)
  have e : opsOf (t :: y) = opsTok t ++ opsOf y := by simp [opsOf]
  rw [e] at h
  simp at h
  omega

theorem info_eq (s : St) (b : Blk) (z : Int) (h : b.size > s.sp ↔ z > s.sp) :
    blockInfo s b = (if z ≤ s.sp then .fits
      else if b.cons then .onePer (s.lw - s.sp + b.off) else .pack (s.lw - s.sp + b.off)) := by
  have e : (s.lw : Int) - (s.sp - b.off) = s.lw - s.sp + b.off := by omega
  rw [blockInfo, e]
  by_cases hz : z ≤ s.sp
  · rw [if_neg (by rw [h]; omega), if_pos hz]
  · rw [if_pos (by rw [h]; omega), if_neg hz]

theorem exec_fins (lw : Nat) (X : List ROp) (g : Page) : ∀ (n : Nat) (g0 : Page),
    exec lw (List.replicate n .fin ++ X) g0 = some g →
    ∃ l, popN n g0.ist = .ok l ∧ exec lw X { g0 with ist := l } = some g ∧
      (∀ i ∈ l, i ∈ g0.ist) ∧ g0.ist.length = n + l.length
  | 0, g0, h => ⟨g0.ist, rfl, h, fun _ h => h, by simp⟩
  | n + 1, g0, h => by
      rw [List.replicate_succ, List.cons_append, exec] at h
      cases hi : g0.ist with
      | nil => simp [hi] at h
      | cons i l =>
        simp only [hi] at h
        obtain ⟨l', h1, h2, h3, h4⟩ := exec_fins lw X g n _ h
        refine ⟨l', h1, h2, fun j hj => List.mem_cons_of_mem _ (h3 j hj), ?_⟩
        simp only at h4
        simp; omega

/-- The outcomes of advancing: it stops before a token whose size is not known, or all is
printed. -/
def Stop (lw : Nat) (rs : Int) (D : Nat → Int) (T : List ROp) (g : Page) (c : Int)
    (p : List Tok) (m : Nat) (s' : St) : Prop :=
  ∃ a' p' h, Rep s' a' p' ∧ Inv s'.lsum rs p' ∧ (∃ t y, p' = t :: y ∧ unres t = true) ∧
    opsOf p = h ++ opsOf p' ∧ (lp p → lp p') ∧ (lastS p → lastS p') ∧ wsum p' ≤ m ∧
    exec lw (fin rs D p' ++ T) (page s') = some g ∧ Qb lw (c + negs h) (page s') ∧
    ¬ ∀ t ∈ p, unres t = false

def Done (lw : Nat) (T : List ROp) (g : Page) (c : Int) (p : List Tok) (s' : St) : Prop :=
  s'.dst = [] ∧ exec lw T (page s') = some g ∧ Qb lw (c + negs (opsOf p)) (page s') ∧
    coincide s' = true ∧ (lastS p → ∃ a', Buf s'.N s'.left s'.right s'.buf a' [])

def Post (lw : Nat) (rs : Int) (D : Nat → Int) (T : List ROp) (g : Page) (c : Int)
    (p : List Tok) (m : Nat) (s' : St) : Prop :=
  s'.lw = lw ∧ s'.rsum = rs ∧ (Stop lw rs D T g c p m s' ∨ Done lw T g c p s')

theorem Post.trans {lw : Nat} {rs : Int} {D : Nat → Int} {T : List ROp} {g : Page} {c : Int}
    {p p2 : List Tok} {m m2 : Nat} {h0 : List Op} {s' : St}
    (h : Post lw rs D T g (c + negs h0) p2 m2 s')
    (e : opsOf p = h0 ++ opsOf p2) (h1 : lp p → lp p2) (h2 : lastS p → lastS p2)
    (h3 : m2 ≤ m) (h4 : (∀ t ∈ p, unres t = false) → ∀ t ∈ p2, unres t = false) :
    Post lw rs D T g c p m s' := by
  refine ⟨h.1, h.2.1, ?_⟩
  rcases h.2.2 with ⟨a', p', hh, k1, k2, k3, k4, k5, k6, k7, k8, k9, k10⟩ | ⟨k1, k2, k3, k4, k5⟩
  · left
    refine ⟨a', p', h0 ++ hh, k1, k2, k3, ?_, fun h => k5 (h1 h), fun h => k6 (h2 h), by omega, k8, ?_,
      fun h => k10 (h4 h)⟩
    · rw [e, k4, List.append_assoc]
    · rw [negs_append, ← add_assoc]; exact k9
  · right
    refine ⟨k1, k2, ?_, k4, fun h => k5 (h2 h)⟩
    rw [e, negs_append, ← add_assoc]; exact k3

/-- How much is left to print, after something has been printed if it can. -/
def bound : List Tok → Nat
  | [] => 0
  | t :: y => if unres t then wsum (t :: y) else wsum (t :: y) - 1

theorem bound_le (p : List Tok) : bound p ≤ wsum p := by
  cases p with
  | nil => simp [bound]
  | cons t y => rw [bound]; split <;> omega

/-- What advance does, for a given amount of fuel. -/
def AdvSpec (f : Nat) : Prop :=
  ∀ (s : St) (a : Nat) (p : List Tok) (D : Nat → Int) (T : List ROp) (g : Page) (c : Int),
    p ≠ [] → Rep s a p → Inv s.lsum s.rsum p → wsum p ≤ f →
    exec s.lw (fin s.rsum D p ++ T) (page s) = some g → Qb s.lw c (page s) →
    ∃ s', advance f s = .ok s' ∧ Post s.lw s.rsum D T g c p (bound p) s'

/-- After a token has been printed. -/
def cont (f : Nat) (s : St) : Except Err St :=
  if coincide s then .ok s else advance f (stepLeft s)

theorem coincide_ne {s : St} (h : s.left ≠ s.right) : coincide s = false := by
  simp [coincide, h]

/-- Part of a token has been printed. -/
theorem cont_more {f : Nat} (hA : AdvSpec f) {s : St} {a : Nat} {P U : List Blk} {y : List Tok}
    {D : Nat → Int} {T : List ROp} {g : Page} {c : Int} (hr : Rep s a (.BB P U :: y))
    (hi : Inv s.lsum s.rsum (.BB P U :: y)) (hw : wsum (.BB P U :: y) ≤ f)
    (he : exec s.lw (fin s.rsum D (.BB P U :: y) ++ T) (page s) = some g) (hq : Qb s.lw c (page s)) :
    ∃ s', cont f s = .ok s' ∧ Post s.lw s.rsum D T g c (.BB P U :: y) (bound (.BB P U :: y)) s' := by
  have hb : s.buf s.left = .BB P U := hr.1.head
  have hne := (hi.wf (.BB P U) (by simp)).1
  have h1 : coincide s = false := by
    simp only [coincide, hb]
    cases P with
    | nil =>
      cases U with
      | nil => simp at hne
      | cons b U => simp
    | cons b P => simp
  have h2 : stepLeft s = s := by
    simp only [stepLeft, hb]
    cases P with
    | nil =>
      cases U with
      | nil => simp at hne
      | cons b U => rfl
    | cons b P => rfl
  rw [cont, h1, h2]
  exact hA s a _ D T g c (by simp) hr hi hw he hq

/-- The token needs no more printing. -/
def spent : Tok → Bool
  | .BB [] [] => true
  | .E 0 0 => true
  | .S _ => true
  | .BR _ _ _ => true
  | _ => false

theorem cont_next {f : Nat} (hA : AdvSpec f) {s : St} {a : Nat} {t : Tok} {y : List Tok}
    {D : Nat → Int} {T : List ROp} {g : Page} {c : Int}
    (hb : Buf s.N s.left s.right s.buf a (t :: y)) (ht : spent t = true)
    (hd : s.dst = (stk s.N (a + 1) y).reverse) (hi : Inv s.lsum s.rsum y) (hw : wsum y ≤ f)
    (he : exec s.lw (fin s.rsum D y ++ T) (page s) = some g) (hq : Qb s.lw c (page s)) :
    ∃ s', cont f s = .ok s' ∧ s'.lw = s.lw ∧ s'.rsum = s.rsum ∧
      (y ≠ [] → Post s.lw s.rsum D T g c y (bound y) s') ∧
      (y = [] → s' = s ∧ coincide s = true) := by
  have hbl : s.buf s.left = t := hb.head
  by_cases hy : y = []
  · subst hy
    have hlr : s.left = s.right := by
      rw [hb.left, hb.right (by simp)]; simp
    have h1 : coincide s = true := by
      simp only [coincide, hlr, decide_true, Bool.true_and]
      rw [← hlr, hbl]
      cases t with
      | S _ => rfl
      | BR _ _ _ => rfl
      | BB P U =>
        cases P with
        | nil =>
          cases U with
          | nil => rfl
          | cons _ _ => simp [spent] at ht
        | cons _ _ => simp [spent] at ht
      | E p u =>
        cases p with
        | zero =>
          cases u with
          | zero => rfl
          | succ _ => simp [spent] at ht
        | succ _ => simp [spent] at ht
    exact ⟨s, by rw [cont, h1]; rfl, rfl, rfl, fun h => absurd rfl h, fun _ => ⟨rfl, h1⟩⟩
  · have h1 := coincide_ne (hb.ne hy)
    have key : ∀ s1 : St, stepLeft s = s1 → s1.lw = s.lw → s1.rsum = s.rsum → s1.lsum = s.lsum →
        page s1 = page s → s1.dst = s.dst → Buf s1.N s1.left s1.right s1.buf (a + 1) y →
        ∃ s', cont f s = .ok s' ∧ s'.lw = s.lw ∧ s'.rsum = s.rsum ∧
          (y ≠ [] → Post s.lw s.rsum D T g c y (bound y) s') ∧
          (y = [] → s' = s ∧ coincide s = true) := by
      intro s1 e1 e2 e3 e4 e5 e6 hb1
      have hN : s1.N = s.N := by simp [St.N, e2]
      obtain ⟨s', k1, k2⟩ := hA s1 (a + 1) y D T g c hy ⟨hb1, by rw [e6, hd, hN]⟩
        (by rw [e4, e3]; exact hi) hw (by rw [e2, e3, e5]; exact he) (by rw [e2, e5]; exact hq)
      rw [e2, e3] at k2
      refine ⟨s', ?_, k2.1, k2.2.1, fun _ => k2, fun h => absurd h hy⟩
      rw [cont, h1, e1]
      exact k1
    cases t with
    | S str =>
      refine key { s with left := s.inc s.left } ?_ rfl rfl rfl rfl rfl (hb.drop' ⟨rfl, rfl⟩ hy)
      simp only [stepLeft, hbl]
    | BR d n o =>
      refine key { s with left := s.inc s.left } ?_ rfl rfl rfl rfl rfl (hb.drop' ⟨rfl, rfl⟩ hy)
      simp only [stepLeft, hbl]
    | BB P U =>
      cases P with
      | nil =>
        cases U with
        | nil =>
          refine key { s with buf := upd s.buf s.left initialToken, left := s.inc s.left } ?_ rfl rfl
            rfl rfl rfl (hb.drop ⟨rfl, rfl⟩ hy)
          simp only [stepLeft, hbl]
        | cons _ _ => simp [spent] at ht
      | cons _ _ => simp [spent] at ht
    | E p u =>
      cases p with
      | zero =>
        cases u with
        | zero =>
          refine key { s with buf := upd s.buf s.left initialToken, left := s.inc s.left } ?_ rfl rfl
            rfl rfl rfl (hb.drop ⟨rfl, rfl⟩ hy)
          simp only [stepLeft, hbl]
        | succ _ => simp [spent] at ht
      | succ _ => simp [spent] at ht

theorem wsum_cons (t : Tok) (y : List Tok) : wsum (t :: y) = weight t + wsum y := by simp [wsum]

theorem opsOf_cons (t : Tok) (y : List Tok) : opsOf (t :: y) = opsTok t ++ opsOf y := by
  simp [opsOf]

/-- A token has been printed completely. -/
theorem print_last {f : Nat} (hA : AdvSpec f) {s : St} {a : Nat} {t t1 : Tok} {y : List Tok}
    {D : Nat → Int} {T : List ROp} {g : Page} {c : Int}
    (hb : Buf s.N s.left s.right s.buf a (t1 :: y)) (ht : spent t1 = true)
    (hk : ∀ str, t = .S str → t1 = .S str)
    (hd : s.dst = (stk s.N (a + 1) y).reverse) (hi : Inv s.lsum s.rsum y) (hw : wsum y ≤ f)
    (he : exec s.lw (fin s.rsum D y ++ T) (page s) = some g)
    (hq : Qb s.lw (c + negs (opsTok t)) (page s)) :
    ∃ s', cont f s = .ok s' ∧ Post s.lw s.rsum D T g c (t :: y) (wsum (t :: y) - 1) s' := by
  obtain ⟨s', k1, k2, k3, k4, k5⟩ := cont_next hA hb ht hd hi hw he hq
  refine ⟨s', k1, ?_⟩
  by_cases hy : y = []
  · subst hy
    obtain ⟨rfl, k6⟩ := k5 rfl
    refine ⟨rfl, rfl, Or.inr ⟨hd, he, ?_, k6, ?_⟩⟩
    · rw [opsOf_cons]
      simpa [opsOf] using hq
    · rintro ⟨str, hs⟩
      simp at hs
      have := hk str hs
      subst this
      exact ⟨a, hb.done ⟨rfl, rfl⟩⟩
  · refine (k4 hy).trans (opsOf_cons t y) lp_tail (lastS_tail hy).1 ?_
      (fun h u hu => h u (List.mem_cons_of_mem _ hu))
    have := bound_le y
    have := weight_pos t
    rw [wsum_cons]; omega

theorem advance_cont {f : Nat} {s s1 : St} {t t1 : Tok} {z : Int} (hb : s.buf s.left = t)
    (hz : tokenSize t = .ok z) (h0 : 0 ≤ z) (hp : printToken s t = .ok (s1, t1)) :
    advance (f + 1) s =
      cont f { s1 with buf := upd s1.buf s1.left t1, lsum := s1.lsum + width t } := by
  simp only [advance, hb, hz, hp, cont]
  rw [if_neg (by omega)]

theorem Buf.set {N l r a : Nat} {buf : Nat → Tok} {t : Tok} {y : List Tok}
    (h : Buf N l r buf a (t :: y)) (t' : Tok) : Buf N l r (upd buf l t') a (t' :: y) := by
  have := Buf.modify (x := []) h t'
  simp only [List.length_nil, Nat.add_zero, List.nil_append] at this
  rw [← h.left] at this
  exact this

theorem finU_last (rs : Int) (b : Blk) : ∀ (U : List Blk) (D : Nat → Int),
    finU rs D (U ++ [b]) = .bgn (rs + b.size + D (1 + U.length)) b.cons b.off :: finU rs D U
  | [], D => by simp [finU]
  | u :: U, D => by
      rw [List.cons_append, finU, finU, finU_last rs b U, List.cons_append]
      congr 3

/-- A block is opened. -/
theorem Qb_block {lw : Nat} {c : Int} {s : St} (hl : s.lw = lw) (b : Blk) (o : Bool)
    (h : Qb lw c (page s)) :
    Qb lw (c + negs [Op.bgn o b.off]) ⟨s.out, s.sp, blockInfo s b :: s.ist⟩ := by
  have h1 := h.1
  simp only [page] at h1
  simp only [negs]
  refine ⟨by simp only; omega, ?_⟩
  intro i hi cur hcur
  rw [List.mem_cons] at hi
  rcases hi with rfl | hi
  · rw [blockInfo] at hcur
    split at hcur
    · split at hcur
      · simp at hcur; omega
      · simp at hcur; omega
    · simp at hcur
  · have := h.2 i hi cur hcur; omega

theorem tokenSize_unres {ls rs : Int} {t : Tok} {y : List Tok} (hi : Inv ls rs (t :: y))
    (hu : unres t = true) : ∃ z, tokenSize t = .ok z ∧ z < 0 := by
  have hl := hi.l1
  have hw := hi.wf t (by simp)
  have hp := hi.pos.1
  cases t with
  | S s => simp [unres] at hu
  | BR d n o => exact ⟨d, rfl, by simpa [unres] using hu⟩
  | E p u =>
    simp [unres] at hu
    refine ⟨-1, ?_, by omega⟩
    rcases hw.2 with h | h
    · simp [tokenSize, h, hu]
    · exact absurd h hu
  | BB P U =>
    have hne : U ≠ [] := by simpa [unres] using hu
    have hlast := List.getLast?_eq_some_getLast hne
    refine ⟨(U.getLast hne).size, by simp only [tokenSize, hlast], ?_⟩
    have := hp (U.getLast hne) (List.getLast_mem hne)
    omega

theorem advance_spec : ∀ f, AdvSpec f
  | 0 => by
      intro s a p D T g c hne _ _ hw
      obtain ⟨t, y, rfl⟩ : ∃ t y, p = t :: y := List.exists_cons_of_ne_nil hne
      rw [wsum_cons] at hw
      have := weight_pos t
      omega
  | f + 1 => by
      have hA := advance_spec f
      intro s a p D T g c hne hr hi hw he hq
      obtain ⟨t, y, rfl⟩ : ∃ t y, p = t :: y := List.exists_cons_of_ne_nil hne
      have hb : s.buf s.left = t := hr.1.head
      rw [wsum_cons] at hw
      by_cases hu : unres t = true
      · obtain ⟨z, hz, hz0⟩ := tokenSize_unres hi hu
        refine ⟨s, ?_, rfl, rfl, Or.inl ⟨a, t :: y, [], hr, hi, ⟨t, y, rfl, hu⟩, rfl, id, id, ?_, he, ?_, ?_⟩⟩
        · simp only [advance, hb, hz, if_pos hz0]
        · rw [bound, if_pos hu]
        · simpa [negs] using hq
        · intro h
          rw [h t (by simp)] at hu
          simp at hu
      · have hu' : unres t = false := by simpa using hu
        have hdst : s.dst = (stk s.N (a + 1) y).reverse := by
          rw [hr.2, stk, hu']; rfl
        have hbd : bound (t :: y) = wsum (t :: y) - 1 := by rw [bound, hu']; rfl
        rw [hbd]
        have hit := hi.tail
        have hwf := hi.wf t (by simp)
        have hq1 := hq.1
        simp only [page] at hq1
        cases t with
        | S str =>
          rw [advance_cont hb rfl (by omega) rfl]
          refine print_last hA (t := .S str) (hr.1.set _) rfl (fun _ h => h) hdst hit
            (by simp only [weight] at hw; omega) ?_ ?_
          · exact he
          · refine ⟨?_, fun i hi => ?_⟩
            · simp only [page, negs, opsTok]; omega
            · simpa [negs, opsTok] using hq.2 i hi
        | BR d n o =>
          have hd0 : ¬ d < 0 := by simpa [unres] using hu'
          have he' : exec s.lw (.brk d n o :: (fin s.rsum D y ++ T)) (page s) = some g := by
            have := he
            simp only [fin, finTok, if_neg hd0, List.singleton_append, List.cons_append] at this
            exact this
          have hn : 0 ≤ n := hwf
          have hok : ∀ s1 : St, printToken s (.BR d n o) = .ok (s1, .BR d n o) → s1.lw = s.lw →
              s1.rsum = s.rsum → s1.lsum = s.lsum → s1.left = s.left → s1.right = s.right →
              s1.buf = s.buf → s1.dst = s.dst →
              exec s.lw (fin s.rsum D y ++ T) (page s1) = some g →
              Qb s.lw (c + negs [Op.brk n o]) (page s1) →
              ∃ s', advance (f + 1) s = .ok s' ∧
                Post s.lw s.rsum D T g c (.BR d n o :: y) (wsum (.BR d n o :: y) - 1) s' := by
            intro s1 hp e1 e2 e3 e4 e5 e6 e7 hex hqb
            have hN : s1.N = s.N := by simp [St.N, e1]
            rw [advance_cont hb rfl (by omega) hp]
            rw [← e1, ← e2]
            refine print_last hA (t := .BR d n o) (a := a) (t1 := .BR d n o) ?_ rfl (fun _ h => by simp at h) ?_ ?_
              (by simp only [weight] at hw; omega) ?_ ?_
            · have := hr.1.set (.BR d n o)
              rw [← hN, ← e4, ← e5, ← e6] at this
              exact this
            · simp only [e7]
              rw [hdst, ← hN]
              rfl
            · simp only [e3, e2]
              exact hit
            · simp only [e1, e2]
              exact hex
            · simp only [e1]
              exact hqb
          rw [exec] at he'
          have hx : -o ≤ max 0 (-o) := by omega
          have hcr : ∀ cur : Int, -c ≤ cur →
              Qb s.lw (c + negs [Op.brk n o])
                (page { s with sp := s.lw - (cur + o), out := s.out ++ crIndent (cur + o) }) := by
            intro cur hcur
            simp only [negs]
            refine ⟨?_, fun i hi cu hcu => ?_⟩
            · simp only [page]; omega
            · have := hq.2 i hi cu hcu; omega
          have hbl : Qb s.lw (c + negs [Op.brk n o])
                (page { s with sp := s.sp - n, out := s.out ++ indent n }) := by
            simp only [negs]
            refine ⟨?_, fun i hi cu hcu => ?_⟩
            · simp only [page]; omega
            · have := hq.2 i hi cu hcu; omega
          cases hist : s.ist with
          | nil => simp [page, hist] at he'
          | cons i l =>
            have hmem : i ∈ (page s).ist := by simp [page, hist]
            cases i with
            | fits =>
              refine hok { s with sp := s.sp - n, out := s.out ++ indent n } ?_ rfl rfl rfl rfl rfl rfl rfl ?_ hbl
              · simp only [printToken, hist]
              · simp only [page, hist] at he'
                rw [← nspaces_eq] at he'
                simp only [page, indent, hist]
                exact he'
            | onePer cur =>
              refine hok { s with sp := s.lw - (cur + o), out := s.out ++ crIndent (cur + o) } ?_ rfl rfl rfl rfl rfl rfl rfl ?_
                (hcr cur (hq.2 _ hmem cur (Or.inr rfl)))
              · simp only [printToken, hist]
              · simp only [page, hist] at he'
                rw [← nspaces_eq] at he'
                simp only [page, crIndent, hist]
                exact he'
            | pack cur =>
              simp only [page, hist] at he'
              by_cases hds : d ≤ s.sp
              · rw [if_pos hds, ← nspaces_eq] at he'
                refine hok { s with sp := s.sp - n, out := s.out ++ indent n } ?_ rfl rfl rfl rfl rfl rfl rfl ?_ hbl
                · simp only [printToken, hist]
                  rw [if_neg (by omega)]
                · simp only [page, indent, hist]
                  exact he'
              · rw [if_neg hds, ← nspaces_eq] at he'
                refine hok { s with sp := s.lw - (cur + o), out := s.out ++ crIndent (cur + o) } ?_ rfl rfl rfl rfl rfl rfl rfl ?_
                  (hcr cur (hq.2 _ hmem cur (Or.inl rfl)))
                · simp only [printToken, hist]
                  rw [if_pos (by omega)]
                · simp only [page, crIndent, hist]
                  exact he'
        | E p u =>
          have hu0 : u = 0 := by simpa [unres] using hu'
          subst hu0
          have hp0 : p ≠ 0 := by have := hwf.1; omega
          have he' : exec s.lw (List.replicate p .fin ++ (fin s.rsum D y ++ T)) (page s) = some g := by
            have := he
            simp only [fin, finTok, List.append_assoc, Nat.add_zero] at this
            exact this
          obtain ⟨l, h1, h2, h3, h4⟩ := exec_fins _ _ _ _ _ he'
          have hpt : printToken s (.E p 0) = .ok ({ s with ist := l }, .E 0 0) := by
            simp only [page] at h1
            simp only [printToken, printE, h1]
            rw [if_neg (by omega)]
          have hz : tokenSize (.E p 0) = .ok 0 := by simp [tokenSize, hp0]
          rw [advance_cont hb hz (by omega) hpt]
          refine print_last hA (t := .E p 0) (hr.1.set _) rfl (fun _ h => by simp at h) hdst hit
            (by simp only [weight] at hw; omega) h2 ?_
          have hn : negs (opsTok (.E p 0)) = 0 := by
            simp only [opsTok, Nat.add_zero]
            clear h1 h4 he' hpt hz hw hp0 he hr hi hu hu' hbd hwf hb hne hit
            induction p with
            | zero => rfl
            | succ p ih => simpa [List.replicate_succ, negs] using ih
          rw [hn, add_zero]
          exact ⟨hq.1, fun i hi => hq.2 i (h3 i hi)⟩
        | BB P U =>
          have hU : U = [] := by simpa [unres] using hu'
          subst hU
          cases P with
          | nil => have := hwf.1; simp at this
          | cons b P =>
            have hpt : printToken s (.BB (b :: P) []) =
                .ok ({ s with ist := blockInfo s b :: s.ist }, .BB P []) := rfl
            have he' : exec s.lw (fin s.rsum D (.BB P [] :: y) ++ T)
                ⟨s.out, s.sp, blockInfo s b :: s.ist⟩ = some g := by
              have := he
              simp only [fin, finTok, finU, finP, List.map_cons, List.nil_append, List.cons_append, exec,
                page] at this
              rw [← info_eq s b b.size Iff.rfl] at this
              simp only [fin, finTok, finU, finP, List.nil_append]
              exact this
            have hqb := Qb_block rfl b b.cons hq
            rw [advance_cont hb rfl (by omega) hpt]
            cases P with
            | nil =>
              refine print_last hA (t := .BB [b] []) (hr.1.set _) rfl (fun _ h => by simp at h) hdst hit
                (by simp only [weight] at hw; omega) ?_ ?_
              · simpa [fin, finTok, finU, finP, page] using he'
              · simpa [opsTok, page] using hqb
            | cons b2 P =>
              have hw2 : wsum (.BB (b2 :: P) [] :: y) ≤ wsum (.BB (b :: b2 :: P) [] :: y) - 1 := by
                rw [wsum_cons, wsum_cons]; simp only [weight, List.length_cons]; omega
              obtain ⟨s', k1, k2⟩ := cont_more (f := f) hA (s := { s with
                  ist := blockInfo s b :: s.ist,
                  buf := upd s.buf s.left (.BB (b2 :: P) []), lsum := s.lsum + 0 })
                (a := a) (P := b2 :: P) (U := []) (y := y) (D := D) (T := T) (g := g)
                (c := c + negs [Op.bgn b.cons b.off])
                ⟨hr.1.set _, by rw [stk]; exact hdst⟩
                (by
                  simp only [add_zero]
                  exact hi.block (by simp) (fun b hb => List.mem_cons_of_mem _ hb) (fun _ h => h)
                    (fun h => absurd rfl h))
                (by rw [wsum_cons] at hw2 ⊢; simp only [weight, List.length_cons, List.length_nil] at hw hw2 ⊢; omega)
                he' hqb
              refine ⟨s', k1, k2.trans ?_ ?_ ?_ ?_ ?_⟩
              · rw [opsOf_cons, opsOf_cons]; rfl
              · intro h
                unfold lp at *
                rw [opsOf_cons] at h ⊢
                have e : ∀ q : List Op, places (opsTok (.BB (b :: b2 :: P) []) ++ q) =
                    places (opsTok (.BB (b2 :: P) []) ++ q) := by
                  intro q
                  show 0 + places _ = _
                  rw [Nat.zero_add]; rfl
                rw [e] at h
                exact h
              · rintro ⟨str, hs⟩
                cases y with
                | nil => simp at hs
                | cons u y => exact ⟨str, by simpa using hs⟩
              · exact Nat.le_trans (bound_le _) hw2
              · intro h u hu
                rw [List.mem_cons] at hu
                rcases hu with rfl | hu
                · rfl
                · exact h u (List.mem_cons_of_mem _ hu)

end Mosml.Pretty
