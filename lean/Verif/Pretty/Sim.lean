import Verif.Pretty.Advance

/-!
# One call after another
-/

namespace Mosml.Pretty

open Mosml.Num (Str)

/-! ## Places and widths -/

def sameKind : Option Op → Op → Bool
  | some (.bgn _ _), .bgn _ _ => true
  | some .fin, .fin => true
  | _, _ => false

theorem places_snoc (x : List Op) (o : Op) :
    places (x ++ [o]) = places x + (if sameKind x.getLast? o then 0 else 1) := by
  induction x with
  | nil => cases o <;> simp [places, sameKind]
  | cons a x ih =>
    cases x with
    | nil => cases a <;> cases o <;> simp [places, sameKind]
    | cons b x =>
      rw [List.getLast?_cons_cons]
      simp only [List.cons_append] at ih ⊢
      cases a <;> cases b <;> simp only [places] at ih ⊢ <;> omega

theorem places_mono (x : List Op) (o : Op) : places x ≤ places (x ++ [o]) := by
  rw [places_snoc]; omega

theorem checked_snoc (x : List Op) (o : Op) (h : isStr o = false) :
    checked (x ++ [o]) = checked x := by
  induction x with
  | nil => cases o <;> simp_all [checked, isStr]
  | cons a x ih =>
    cases a <;> simp only [List.cons_append, checked, List.any_append, List.any_cons,
      List.any_nil, h, Bool.or_false, ih]

theorem checked_tok {t : Tok} (ht : wf t) {r : List Op} (hr : 0 ≤ checked r) :
    0 ≤ checked (opsTok t ++ r) ∧ checked (opsTok t ++ r) ≤ width t + checked r := by
  cases t with
  | S s => simp [opsTok, checked, width]; omega
  | BR d n o =>
    have hn : 0 ≤ n := ht
    simp only [opsTok, List.cons_append, List.nil_append, checked, width]
    split <;> omega
  | E p u =>
    have : ∀ k, checked (List.replicate k Op.fin ++ r) = checked r := by
      intro k
      induction k with
      | zero => rfl
      | succ k ih => rw [List.replicate_succ, List.cons_append]; simp only [checked]; exact ih
    simp only [opsTok, this, width]; omega
  | BB P U =>
    have : ∀ l : List Blk, checked (l.map (fun b => Op.bgn b.cons b.off) ++ r) = checked r := by
      intro l
      induction l with
      | nil => rfl
      | cons b l ih => rw [List.map_cons, List.cons_append]; simp only [checked]; exact ih
    simp only [opsTok, this, width]; omega

theorem checked_wd {p : List Tok} (h : ∀ t ∈ p, wf t) :
    0 ≤ checked (opsOf p) ∧ checked (opsOf p) ≤ wd p := by
  induction p with
  | nil => simp [opsOf, checked, wd]
  | cons t p ih =>
    have i := ih (fun t ht => h t (List.mem_cons_of_mem _ ht))
    have := checked_tok (h t (by simp)) i.1
    rw [opsOf_cons, wd_cons]
    omega

theorem opsOf_append (x y : List Tok) : opsOf (x ++ y) = opsOf x ++ opsOf y := by simp [opsOf]

theorem opsTok_last {t : Tok} (h : wf t) : ∃ q o, opsTok t = q ++ [o] ∧
    ((∃ c f, o = .bgn c f) → isBB t = true) ∧ (o = .fin → isE t = true) := by
  cases t with
  | S s => exact ⟨[], .str s, rfl, by simp, by simp⟩
  | BR d n o => exact ⟨[], .brk n o, rfl, by simp, by simp⟩
  | E p u =>
    obtain ⟨k, hk⟩ : ∃ k, p + u = k + 1 := ⟨p + u - 1, by have := h.1; omega⟩
    exact ⟨List.replicate k .fin, .fin, by rw [opsTok, hk, List.replicate_succ'], by simp, fun _ => rfl⟩
  | BB P U =>
    have hne : U.reverse ++ P ≠ [] := by
      intro h0
      have := congrArg List.length h0
      simp at this
      have := h.1
      simp_all
    refine ⟨(U.reverse ++ P).dropLast.map (fun b => Op.bgn b.cons b.off),
      (fun b => Op.bgn b.cons b.off) ((U.reverse ++ P).getLast hne), ?_, fun _ => rfl, by simp⟩
    rw [opsTok]
    conv_lhs => rw [← List.dropLast_concat_getLast hne]
    rw [List.map_append]; rfl

/-- The last call, and the last token. -/
theorem opsOf_last {p : List Tok} {t : Tok} (h : p.getLast? = some t) (hw : ∀ t ∈ p, wf t) (o : Op)
    (h1 : (∃ c f, o = .bgn c f) → isBB t = false) (h2 : o = .fin → isE t = false) :
    sameKind (opsOf p).getLast? o = false := by
  have hne : p ≠ [] := by rintro rfl; simp at h
  have hp : p = p.dropLast ++ [t] := by
    rw [List.getLast?_eq_some_getLast hne] at h
    simp at h
    rw [← h, List.dropLast_concat_getLast]
  obtain ⟨q, l, k1, k2, k3⟩ := opsTok_last (hw t (List.mem_of_getLast? h))
  have : (opsOf p).getLast? = some l := by
    rw [hp, opsOf_append]
    have : opsOf [t] = q ++ [l] := by simp [opsOf, k1]
    rw [this, ← List.append_assoc, List.getLast?_concat]
  rw [this]
  cases l with
  | str _ => rfl
  | brk _ _ => rfl
  | bgn _ _ =>
    cases o with
    | bgn c f =>
      have := h1 ⟨c, f, rfl⟩
      rw [k2 ⟨_, _, rfl⟩] at this
      simp at this
    | _ => rfl
  | fin =>
    cases o with
    | fin =>
      have := h2 rfl
      rw [k3 rfl] at this
      simp at this
    | _ => rfl

theorem lp_snoc {p : List Tok} {t u : Tok} (h : lp p) (hl : p.getLast? = some u)
    (hw : ∀ t ∈ p, wf t) {o : Op} (ho : opsTok t = [o])
    (h1 : (∃ c f, o = .bgn c f) → isBB u = false) (h2 : o = .fin → isE u = false) :
    lp (p ++ [t]) := by
  unfold lp at *
  rw [opsOf_append, show opsOf [t] = [o] by simp [opsOf, ho], places_snoc,
    opsOf_last hl hw o h1 h2]
  simp; omega

/-! ## The invariant between calls -/

/-- Calls `h` have been made, `f` will be made. -/
def Mid (lw : Nat) (g : Page) (h f : List Op) (s : St) : Prop :=
  s.lw = lw ∧ ∃ a p h1, Rep s a p ∧
    (p ≠ [] → Inv s.lsum s.rsum p ∧ s.dst ≠ [] ∧ LastOK p) ∧
    checked (opsOf p) ≤ lw + negs h1 ∧ h = h1 ++ opsOf p ∧ lp p ∧ Qb lw (negs h1) (page s) ∧
    exec lw (fin s.rsum (fun d => dist d f) p ++ annot f) (page s) = some g

theorem dst_nil {s : St} {a : Nat} {p : List Tok} (hr : Rep s a p) (hp : p ≠ [] → s.dst ≠ [])
    (hd : s.dst = []) : p = [] := by
  by_contra h
  exact hp h hd

theorem dst_ne {s : St} {a : Nat} {p : List Tok} (hr : Rep s a p) (hd : s.dst ≠ []) : p ≠ [] := by
  rintro rfl
  exact hd hr.2

theorem room {lw : Nat} {ops h h1 f : List Op} {p : List Tok} (hR : Roomy lw ops)
    (ho : ops = h ++ f) (hh : h = h1 ++ opsOf p) (hc : checked (opsOf p) ≤ lw + negs h1)
    (hl : lp p) : p.length < 3 * lw := by
  have h1' : negs h1 ≤ negs ops := by
    rw [ho, hh, negs_append, negs_append]
    have := negs_nonneg (opsOf p)
    have := negs_nonneg f
    omega
  have := hR h1 (opsOf p) f (by rw [ho, hh]) (by omega)
  unfold lp at hl
  omega

theorem dist_nonneg : ∀ (r : List Op) (d e : Nat), Nested e r → 0 ≤ dist d r
  | [], _, _, _ => by simp [dist]
  | .str s :: r, d, e, h => by
      have := dist_nonneg r d e h
      simp only [dist]; omega
  | .bgn _ _ :: r, d, e, h => dist_nonneg r (d + 1) (e + 1) h
  | .fin :: r, d, e, h => dist_nonneg r (d - 1) (e - 1) h.2
  | .brk n _ :: r, d, e, h => by
      have := dist_nonneg r d e h.2.2
      have := h.2.1
      simp only [dist]; split <;> omega

theorem LastOK_lastS {p : List Tok} (h : lastS p) : LastOK p := by
  obtain ⟨str, hs⟩ := h
  intro t ht
  rw [hs] at ht
  simp at ht
  subst ht
  simp [isBB, isE]

theorem step_str {lw : Nat} {g : Page} {h f : List Op} {s : St} {str : Str} {e : Nat}
    (hR : Roomy lw (h ++ .str str :: f)) (hI : lw + negs (h ++ .str str :: f) < infinity)
    (hN : Nested e f) (hm : Mid lw g h (.str str :: f) s) :
    ∃ s', addString s str = .ok s' ∧ Mid lw g (h ++ [.str str]) f s' := by
  obtain ⟨hlw, a, p, h1, hr, hp, hc, hh, hl, hq, he⟩ := hm
  have hneg : negs (h ++ [Op.str str]) = negs h := by rw [negs_append]; simp [negs]
  by_cases hd : s.dst = []
  · have hp0 : p = [] := dst_nil hr (fun h => (hp h).2.1) hd
    subst hp0
    refine ⟨{ s with out := s.out ++ str, sp := s.sp - str.length }, by rw [addString, if_pos hd]; rfl, hlw, a, [], h ++ [.str str], ⟨hr.1, hd⟩,
      fun h => absurd rfl h, ?_, by simp [opsOf], by simp [lp], ?_, ?_⟩
    · have := negs_nonneg (h ++ [Op.str str])
      simp only [opsOf, List.flatMap_nil, checked]; omega
    · have hh' : h = h1 := by rw [hh]; simp [opsOf]
      rw [hneg, hh']
      refine ⟨?_, hq.2⟩
      have := hq.1
      simp only [page] at this ⊢
      omega
    · simp only [fin, List.nil_append, annot, exec] at he ⊢
      exact he
  · have hne := dst_ne hr hd
    obtain ⟨hi, _, _⟩ := hp hne
    have hlen : p.length < s.N := by
      rw [St.N, hlw]; exact room hR rfl hh hc hl
    obtain ⟨u, hu⟩ : ∃ u, p.getLast? = some u := ⟨_, List.getLast?_eq_some_getLast hne⟩
    have hb := hr.1.append hne hlen (.S str)
    have hops : opsOf (p ++ [.S str]) = opsOf p ++ [.str str] := by rw [opsOf_append]; rfl
    have hls : lastS (p ++ [.S str]) := ⟨str, by simp⟩
    rw [addString, if_neg hd]
    obtain ⟨s', k1, k2⟩ := checkStream_spec lw (s.rsum + str.length) (fun d => dist d f) (annot f) g
      (fun d => dist_nonneg f d e hN)
      (fuelOf { s with right := s.inc s.right, buf := upd s.buf (s.inc s.right) (.S str), rsum := s.rsum + str.length })
      { s with right := s.inc s.right, buf := upd s.buf (s.inc s.right) (.S str), rsum := s.rsum + str.length } a (p ++ [Tok.S str]) (negs h1) hlw rfl
      ⟨hb, by
        show s.dst = (stk s.N a (p ++ [.S str])).reverse
        rw [stk_append, hr.2]; simp [stk, unres]⟩
      ⟨by
        intro t ht
        rw [List.mem_append] at ht
        rcases ht with ht | ht
        · exact hi.wf t ht
        · simp at ht; subst ht; trivial,
       hi.l1, by rw [pos_append]; exact ⟨hi.pos, trivial, trivial⟩,
       by
        have := hi.sum
        rw [wd_append]
        have : wd [Tok.S str] = str.length := by simp [wd, width]
        simp only; omega,
       by rw [List.reverse_append]; exact ⟨fun h => by simp [unres] at h, hi.ag⟩,
       by rw [GG_append]; exact ⟨hi.gg, by simp [unres], trivial⟩⟩
      hd hls (fuelOf_ge hb)
      (by
        rw [fin_append]
        simp only [fin, finTok, actA, actTok, List.append_nil, List.append_assoc,
          List.singleton_append]
        have := he
        rw [annot] at this
        rw [← fin_far s.rsum str.length (fun d => dist d (.str str :: f)) (fun d => dist d f) p
          (fun d => rfl)]
        exact this)
      hq (by
        rw [hops]
        have e1 : negs (h ++ .str str :: f) = negs h1 + negs (opsOf p) + negs f := by
          rw [hh, negs_append, negs_append]; simp [negs]
        have e2 : negs (opsOf p ++ [.str str]) = negs (opsOf p) := by rw [negs_append]; simp [negs]
        have := negs_nonneg f
        omega)
    refine ⟨s', k1, ?_⟩
    obtain ⟨m1, m2, m3⟩ := k2
    rcases m3 with ⟨a2, p2, h', n1, n2, n3, n4, n5, n6, n7, n8, n9⟩ | ⟨n1, n2, n3, a', n4⟩
    · refine ⟨m1, a2, p2, h1 ++ h', n1, fun _ => ⟨by rw [m2]; exact n2, n3, LastOK_lastS n6⟩, ?_, ?_, ?_, ?_, ?_⟩
      · have w := checked_wd n2.wf
        have := n2.sum
        have := n8.1
        rw [negs_append]
        simp only [page] at this
        omega
      · rw [hh, List.append_assoc, ← hops, n4, List.append_assoc]
      · exact n5 (lp_snoc hl hu hi.wf rfl (by simp) (by simp))
      · rw [negs_append]; exact n8
      · rw [m2]; exact n7
    · refine ⟨m1, a', [], h1 ++ opsOf (p ++ [.S str]), ⟨n4, n1⟩, fun h => absurd rfl h, ?_, ?_, by simp [lp], ?_, n2⟩
      · have := negs_nonneg (h1 ++ opsOf (p ++ [.S str]))
        have e0 : checked (opsOf []) = 0 := rfl
        rw [e0]; omega
      · rw [hh, hops]; simp [opsOf]
      · rw [negs_append]; exact n3

/-! ## Begin, end and break -/

theorem same_length {r r' : List Tok} (h : List.Forall₂ Same r r') : r'.length = r.length := by
  induction h with
  | nil => rfl
  | cons _ _ ih => simp [ih]

theorem upd_right {s : St} {a : Nat} {p : List Tok} {t : Tok} (t' : Tok)
    (h : Buf s.N s.left s.right s.buf a (p ++ [t])) :
    Buf s.N s.left s.right (upd s.buf s.right t') a (p ++ [t']) := by
  have := h.modify t'
  have e : s.right = (a + p.length) % s.N := by
    rw [h.right (by simp)]; congr 1; simp
  rw [← e] at this
  exact this

theorem next_clean {s : St} {a : Nat} {p : List Tok} (h : Buf s.N s.left s.right s.buf a p)
    (hne : p ≠ []) (hlen : p.length < s.N) :
    isBB (s.buf (s.inc s.right)) = false ∧ isE (s.buf (s.inc s.right)) = false := by
  apply h.clean
  intro i hi
  have hl := List.length_pos_iff.2 hne
  have : s.inc s.right = (a + p.length) % s.N := by
    rw [St.inc, h.right hne, Nat.mod_add_mod]; congr 1; omega
  rw [this]
  intro hh
  have := mod_inj hlen (by omega) hh
  omega

theorem push_ok {s : St} {i : Nat} (h : s.dst.length < s.N) :
    push s i = .ok { s with dst := i :: s.dst } := by
  rw [push, if_neg (by omega)]

/-- A token is added that stands for one call. -/
theorem mid_append {lw : Nat} {g : Page} {h h1 f' : List Op} {s : St} {a : Nat} {p : List Tok}
    {t u : Tok} {o : Op} (hlw : s.lw = lw) (hr : Rep s a p) (hi : Inv s.lsum s.rsum p)
    (hlen : p.length < s.N) (hne : p ≠ [])
    (hc : checked (opsOf p) ≤ lw + negs h1) (hh : h = h1 ++ opsOf p) (hl : lp p)
    (hq : Qb lw (negs h1) (page s)) (hu : p.getLast? = some u) (ho : opsTok t = [o])
    (hos : isStr o = false) (ht : unres t = true) (hwt : wf t)
    (hpt : posTok s.rsum t) (hag : Ag (fun d => d) (fun d => d) (t :: p.reverse))
    (hg : isBR t = true → lastOk true p = true)
    (hk1 : (∃ c f, o = .bgn c f) → isBB u = false) (hk2 : o = .fin → isE u = false)
    (hlast : LastOK (p ++ [t]))
    (he : exec lw (fin (s.rsum + width t) (fun d => dist d f') (p ++ [t]) ++ annot f') (page s) = some g) :
    Mid lw g (h ++ [o]) f' { s with
      right := s.inc s.right, buf := upd s.buf (s.inc s.right) t, dst := s.inc s.right :: s.dst,
      rsum := s.rsum + width t } := by
  have hops : opsOf (p ++ [t]) = opsOf p ++ [o] := by rw [opsOf_append]; simp [opsOf, ho]
  have hinc : s.inc s.right = (a + p.length) % s.N := by
    have hl := List.length_pos_iff.2 hne
    rw [St.inc, hr.1.right hne, Nat.mod_add_mod]; congr 1; omega
  refine ⟨hlw, a, p ++ [t], h1, ⟨hr.1.append hne hlen t, ?_⟩, fun _ => ⟨⟨?_, hi.l1, ?_, ?_, ?_, ?_⟩, by simp, hlast⟩, ?_, ?_, ?_, hq, he⟩
  · show s.inc s.right :: s.dst = (stk s.N a (p ++ [t])).reverse
    rw [stk_append, hr.2, hinc]; simp [stk, ht]
  · intro v hv
    rw [List.mem_append] at hv
    rcases hv with hv | hv
    · exact hi.wf v hv
    · simp at hv; subst hv; exact hwt
  · rw [pos_append, ← hi.sum]
    exact ⟨hi.pos, hpt, trivial⟩
  · have := hi.sum
    rw [wd_append]
    have : wd [t] = width t := by simp [wd]
    simp only; omega
  · rw [List.reverse_append]; exact hag
  · rw [GG_append]
    exact ⟨hi.gg, fun _ hb => hg hb, trivial⟩
  · rw [hops, checked_snoc _ _ hos]; exact hc
  · rw [hops, hh, List.append_assoc]
  · exact lp_snoc hl hu hi.wf ho hk1 hk2

/-- The last token is extended by one call. -/
theorem mid_merge {lw : Nat} {g : Page} {h h1 f' : List Op} {s : St} {a : Nat} {p : List Tok}
    {t t' : Tok} {o : Op} (hlw : s.lw = lw) (hr : Rep s a (p ++ [t])) (hi : Inv s.lsum s.rsum (p ++ [t]))
    (hd : s.dst ≠ []) (hc : checked (opsOf (p ++ [t])) ≤ lw + negs h1) (hh : h = h1 ++ opsOf (p ++ [t]))
    (hl : lp (p ++ [t])) (hq : Qb lw (negs h1) (page s)) (ho : opsTok t' = opsTok t ++ [o])
    (hos : isStr o = false) (ht : unres t' = unres t) (hwt : wf t') (hw : width t' = width t)
    (hpt : posTok (s.lsum + wd p) t') (hag : Ag (fun d => d) (fun d => d) (t' :: p.reverse))
    (hbr : isBR t' = false) (hlast : LastOK (p ++ [t']))
    (he : exec lw (fin s.rsum (fun d => dist d f') (p ++ [t']) ++ annot f') (page s) = some g) :
    Mid lw g (h ++ [o]) f' { s with buf := upd s.buf s.right t' } := by
  have hops : opsOf (p ++ [t']) = opsOf (p ++ [t]) ++ [o] := by
    rw [opsOf_append, opsOf_append, List.append_assoc]; simp [opsOf, ho]
  have hpos := hi.pos
  have hgg := hi.gg
  rw [pos_append] at hpos
  rw [GG_append] at hgg
  refine ⟨hlw, a, p ++ [t'], h1, ⟨upd_right t' hr.1, ?_⟩, fun _ => ⟨⟨?_, hi.l1, ?_, ?_, ?_, ?_⟩, hd, hlast⟩, ?_, ?_, ?_, hq, he⟩
  · show s.dst = (stk s.N a (p ++ [t'])).reverse
    rw [hr.2, stk_append, stk_append]; simp [stk, ht]
  · intro v hv
    rw [List.mem_append] at hv
    rcases hv with hv | hv
    · exact hi.wf v (by simp [hv])
    · simp at hv; subst hv; exact hwt
  · rw [pos_append]
    exact ⟨hpos.1, hpt, trivial⟩
  · have := hi.sum
    rw [wd_append] at this ⊢
    have e : wd [t'] = wd [t] := by simp [wd, hw]
    rw [e]; exact this
  · rw [List.reverse_append]; exact hag
  · rw [GG_append]
    exact ⟨hgg.1, fun _ hb => by rw [hbr] at hb; simp at hb, trivial⟩
  · rw [hops, checked_snoc _ _ hos]; exact hc
  · rw [hops, hh, List.append_assoc]
  · unfold lp at *
    rw [hops]
    have := places_mono (opsOf (p ++ [t])) o
    simp at hl ⊢
    omega

/-- The first token. -/
theorem mid_first {lw : Nat} {g : Page} {h f' : List Op} {s : St} {a : Nat}
    {t : Tok} {o : Op} (hlw : s.lw = lw) (hr : Rep s a []) (hq : Qb lw (negs h) (page s))
    (ho : opsTok t = [o]) (hos : isStr o = false) (ht : unres t = true) (hwt : wf t)
    (hpt : posTok 1 t) (hp : pcount t = 0) (hlast : LastOK [t])
    (he : exec lw (fin (1 + width t) (fun d => dist d f') [t] ++ annot f') (page s) = some g) :
    Mid lw g (h ++ [o]) f' { s with
      left := 0, right := 0, buf := upd s.buf 0 t, dst := 0 :: s.dst, lsum := 1,
      rsum := 1 + width t } := by
  have hops : opsOf [t] = [o] := by simp [opsOf, ho]
  have hd : s.dst = [] := hr.2
  refine ⟨hlw, 0, [t], h, ⟨hr.1.first t, ?_⟩, fun _ => ⟨⟨?_, by simp, ⟨hpt, trivial⟩, ?_, ⟨?_, trivial⟩, ⟨?_, trivial⟩⟩, by simp, hlast⟩, ?_, ?_, ?_, hq, he⟩
  · rw [hd]; simp [stk, ht]
  · intro v hv
    simp at hv; subst hv; exact hwt
  · simp [wd]
  · intro _ d; simp [hp]
  · intro _ _; rfl
  · rw [hops]
    have := negs_nonneg h
    cases o <;> simp_all [checked, isStr] <;> omega
  · rw [hops]
  · unfold lp
    rw [hops]
    cases o <;> simp [places]

theorem step_bgn {lw : Nat} {g : Page} {h f : List Op} {s : St} {c : Bool} {off : Int}
    (hR : Roomy lw (h ++ .bgn c off :: f)) (hm : Mid lw g h (.bgn c off :: f) s) :
    ∃ s', beginBlock s c off = .ok s' ∧ Mid lw g (h ++ [.bgn c off]) f s' := by
  obtain ⟨hlw, a, p, h1, hr, hp, hc, hh, hl, hq, he⟩ := hm
  have hNp := hr.1.pos
  by_cases hd : s.dst = []
  · have hp0 : p = [] := dst_nil hr (fun h => (hp h).2.1) hd
    subst hp0
    have hh' : h = h1 := by rw [hh]; simp [opsOf]
    have hcl := hr.1.clean 0 (by simp)
    refine ⟨_, ?_, mid_first (t := .BB [] [⟨-1, off, c⟩]) hlw hr (by rw [hh']; exact hq) rfl rfl rfl
      ⟨by simp, by simp⟩ (by simp [posTok]) rfl ?_ ?_⟩
    · simp only [beginBlock, hd, if_true, width, add_zero]
      cases hb : s.buf 0 with
      | BB P U => rw [hb] at hcl; simp [isBB] at hcl
      | S _ => simp only; rw [push_ok (by simpa [St.N] using hNp)]
      | E _ _ => simp only; rw [push_ok (by simpa [St.N] using hNp)]
      | BR _ _ _ => simp only; rw [push_ok (by simpa [St.N] using hNp)]
    · intro t ht; simp at ht; subst ht; simp [isBB, isE, pcount, unres]
    · simp only [fin, finTok, finU, finP, actA, width, annot, dist, List.nil_append, List.append_nil,
        List.map_nil, List.length_nil, Nat.add_zero, List.singleton_append, add_zero] at he ⊢
      have e : (1 : Int) + -1 + dist 1 f = dist 1 f := by omega
      rw [e]; exact he
  · have hne := dst_ne hr hd
    obtain ⟨hi, _, hlo⟩ := hp hne
    have hlen : p.length < s.N := by
      rw [St.N, hlw]; exact room hR rfl hh hc hl
    obtain ⟨u, hu⟩ : ∃ u, p.getLast? = some u := ⟨_, List.getLast?_eq_some_getLast hne⟩
    have hbr := hr.1.last hu
    rw [annot] at he
    cases hbb : isBB u with
    | true =>
      obtain ⟨k1, k2⟩ := (hlo u hu).1 hbb
      obtain ⟨U, rfl⟩ : ∃ U, u = .BB [] U := by
        cases u <;> simp [isBB] at hbb
        simp [pcount] at k1
        subst k1
        exact ⟨_, rfl⟩
      obtain ⟨x, rfl⟩ : ∃ x, p = x ++ [.BB [] U] := by
        rw [List.getLast?_eq_some_getLast hne] at hu
        simp at hu
        exact ⟨p.dropLast, by rw [← hu, List.dropLast_concat_getLast]⟩
      have hU : U ≠ [] := by simpa [unres] using k2
      have hsum := hi.sum
      have hpos := hi.pos
      have hag := hi.ag
      rw [wd_append] at hsum
      rw [pos_append] at hpos
      rw [List.reverse_append] at hag
      have hw0 : wd [Tok.BB [] U] = 0 := by simp [wd, width]
      refine ⟨_, ?_, mid_merge (t := .BB [] U) (t' := .BB [] (⟨-s.rsum, off, c⟩ :: U)) hlw hr hi hd hc hh hl hq
        ?_ rfl (by simp [unres, hU]) ⟨by simp, by simp⟩ rfl ?_ ⟨fun _ d => rfl, ?_⟩ rfl ?_ ?_⟩
      · simp only [beginBlock, hd, if_false, bbInc, hbr]
      · simp [opsTok]
      · intro b hb
        rw [List.mem_cons] at hb
        rcases hb with rfl | hb
        · simp only; omega
        · exact hpos.2.1 b hb
      · have := Ag_comp (fun d => d + 1) _ _ _ hag.2
        have e1 : (fun d => actTok (.BB [] (⟨-s.rsum, off, c⟩ :: U)) d) =
            fun d => actTok (.BB [] U) d + 1 := by
          funext d; simp only [actTok, List.length_cons]; omega
        have e2 : (fun d => actUTok (.BB [] (⟨-s.rsum, off, c⟩ :: U)) d) =
            fun d => actUTok (.BB [] U) d + 1 := by
          funext d; simp only [actUTok, List.length_cons]; omega
        show Ag (fun d => actTok (.BB [] (⟨-s.rsum, off, c⟩ :: U)) d)
          (fun d => actUTok (.BB [] (⟨-s.rsum, off, c⟩ :: U)) d) x.reverse
        rw [e1, e2]
        exact this
      · intro t ht; simp at ht; subst ht; simp [isBB, isE, pcount, unres]
      · have := he
        rw [fin_append] at this ⊢
        simp only [fin, finTok, finU, finP, actA, actTok, List.map_nil, List.append_nil, List.length_nil,
          Nat.add_zero, Nat.zero_add, List.length_cons, dist, List.append_assoc, List.singleton_append,
          Nat.add_assoc] at this ⊢
        have e : (s.rsum : Int) + -s.rsum + dist 1 f = dist 1 f := by omega
        rw [e]; exact this
    | false =>
      have hcl := (next_clean hr.1 hne hlen).1
      have hst : s.dst.length < s.N := by
        rw [hr.2, List.length_reverse]
        have := stk_length s.N p a
        omega
      refine ⟨_, ?_, mid_append (t := .BB [] [⟨-s.rsum, off, c⟩]) hlw hr hi hlen hne hc hh hl hq hu rfl rfl
        rfl ⟨by simp, by simp⟩ (by simp [posTok]) ⟨fun _ d => rfl, ?_⟩ (by simp [isBR])
        (fun _ => hbb) (by simp) ?_ ?_⟩
      · have hinc : bbInc s = { s with right := s.inc s.right } := by
          rw [bbInc, hbr]
          cases u <;> simp [isBB] at hbb <;> rfl
        simp only [beginBlock, hd, if_false, hinc, width, add_zero]
        cases hb : s.buf (s.inc s.right) with
        | BB P U => rw [hb] at hcl; simp [isBB] at hcl
        | S _ => simp only; rw [push_ok (by exact hst)]
        | E _ _ => simp only; rw [push_ok (by exact hst)]
        | BR _ _ _ => simp only; rw [push_ok (by exact hst)]
      · have := Ag_comp (fun d => d + 1) _ _ _ hi.ag
        simpa only [actTok, actUTok, List.length_cons, List.length_nil, Nat.zero_add] using this
      · intro t ht; simp at ht; subst ht; simp [isBB, isE, pcount, unres]
      · have := he
        rw [fin_append]
        simp only [fin, finTok, finU, finP, actA, actTok, List.map_nil, List.append_nil, List.length_nil,
          Nat.add_zero, Nat.zero_add, List.length_cons, dist, List.append_assoc, List.singleton_append,
          List.nil_append, width, add_zero] at this ⊢
        have e : (s.rsum : Int) + -s.rsum + dist 1 f = dist 1 f := by omega
        rw [e]; exact this

theorem step_fin {lw : Nat} {g : Page} {h f : List Op} {s : St}
    (hR : Roomy lw (h ++ .fin :: f)) (hm : Mid lw g h (.fin :: f) s) :
    ∃ s', endBlock s = .ok s' ∧ Mid lw g (h ++ [.fin]) f s' := by
  obtain ⟨hlw, a, p, h1, hr, hp, hc, hh, hl, hq, he⟩ := hm
  by_cases hd : s.dst = []
  · have hp0 : p = [] := dst_nil hr (fun h => (hp h).2.1) hd
    subst hp0
    have hh' : h = h1 := by rw [hh]; simp [opsOf]
    simp only [fin, annot, List.nil_append] at he
    obtain ⟨l, k1, k2, k3, k4⟩ := exec_fins lw (annot f) g 1 (page s) he
    have hn : negs (h ++ [Op.fin]) = negs h1 := by rw [negs_append, hh']; simp [negs]
    refine ⟨{ s with ist := l }, ?_, hlw, a, [], h ++ [.fin], ⟨hr.1, hd⟩,
      fun h => absurd rfl h, ?_, by simp [opsOf], by simp [lp], ?_, ?_⟩
    · simp only [page] at k1
      simp only [endBlock, hd, if_true, printToken, printE, k1]
      simp
    · have := negs_nonneg (h ++ [Op.fin])
      simp only [opsOf, List.flatMap_nil, checked]; omega
    · rw [hn]
      exact ⟨hq.1, fun i hi => hq.2 i (k3 i hi)⟩
    · exact k2
  · have hne := dst_ne hr hd
    obtain ⟨hi, _, hlo⟩ := hp hne
    have hlen : p.length < s.N := by
      rw [St.N, hlw]; exact room hR rfl hh hc hl
    obtain ⟨u, hu⟩ : ∃ u, p.getLast? = some u := ⟨_, List.getLast?_eq_some_getLast hne⟩
    have hbr := hr.1.last hu
    rw [annot] at he
    cases hee : isE u with
    | true =>
      have k2 := (hlo u hu).2 hee
      have hwu := hi.wf u (List.mem_of_getLast? hu)
      obtain ⟨n, rfl⟩ : ∃ n, u = .E 0 (n + 1) := by
        cases u <;> simp [isE] at hee
        rename_i q n
        have hn : n ≠ 0 := by simpa [unres] using k2
        have hq0 : q = 0 := by rcases hwu.2 with h | h <;> omega
        subst hq0
        exact ⟨n - 1, by congr 1; omega⟩
      obtain ⟨x, rfl⟩ : ∃ x, p = x ++ [.E 0 (n + 1)] := by
        rw [List.getLast?_eq_some_getLast hne] at hu
        simp at hu
        exact ⟨p.dropLast, by rw [← hu, List.dropLast_concat_getLast]⟩
      have hag := hi.ag
      rw [List.reverse_append] at hag
      refine ⟨_, ?_, mid_merge (t := .E 0 (n + 1)) (t' := .E 0 (n + 1 + 1)) hlw hr hi hd hc hh hl hq
        ?_ rfl (by simp [unres]) ⟨by omega, Or.inl rfl⟩ rfl trivial ⟨fun _ d => rfl, ?_⟩ rfl ?_ ?_⟩
      · simp only [endBlock, hd, if_false, eInc, hbr]
      · simp only [opsTok, ← List.replicate_succ', Nat.zero_add]
      · have := Ag_comp (fun d => d - 1) _ _ _ hag.2
        simp only [actTok, actUTok, Nat.sub_sub, Nat.zero_add] at this ⊢
        exact this
      · intro t ht; simp at ht; subst ht; simp [isBB, isE, unres]
      · have := he
        rw [fin_append] at this ⊢
        simp only [fin, finTok, actA, actTok, List.append_nil, dist, List.append_assoc, Nat.zero_add,
          Nat.sub_sub] at this ⊢
        rw [List.replicate_succ' (n := n + 1), List.append_assoc]
        exact this
    | false =>
      have hcl := (next_clean hr.1 hne hlen).2
      have hst : s.dst.length < s.N := by
        rw [hr.2, List.length_reverse]
        have := stk_length s.N p a
        omega
      refine ⟨_, ?_, mid_append (t := .E 0 1) hlw hr hi hlen hne hc hh hl hq hu rfl rfl
        rfl ⟨by omega, Or.inl rfl⟩ trivial ⟨fun _ d => rfl, ?_⟩ (by simp [isBR])
        (by simp) (fun _ => hee) ?_ ?_⟩
      · have hinc : eInc s = { s with right := s.inc s.right } := by
          rw [eInc, hbr]
          cases u <;> simp [isE] at hee <;> rfl
        simp only [endBlock, hd, if_false, hinc, width, add_zero]
        cases hb : s.buf (s.inc s.right) with
        | E P U => rw [hb] at hcl; simp [isE] at hcl
        | S _ => simp only; rw [push_ok (by exact hst)]
        | BB _ _ => simp only; rw [push_ok (by exact hst)]
        | BR _ _ _ => simp only; rw [push_ok (by exact hst)]
      · have := Ag_comp (fun d => d - 1) _ _ _ hi.ag
        simpa only [actTok, actUTok, Nat.zero_add] using this
      · intro t ht; simp at ht; subst ht; simp [isBB, isE, unres]
      · have := he
        rw [fin_append]
        simp only [fin, finTok, actA, actTok, List.append_nil, dist, List.append_assoc, Nat.zero_add,
          width, add_zero] at this ⊢
        exact this

theorem step_brk {lw : Nat} {g : Page} {h f : List Op} {s : St} {n off : Int} (hn : 0 ≤ n)
    (hR : Roomy lw (h ++ .brk n off :: f)) (hm : Mid lw g h (.brk n off :: f) s) :
    ∃ s', addBreak s n off = .ok s' ∧ Mid lw g (h ++ [.brk n off]) f s' := by
  obtain ⟨hlw, a, p, h1, hr, hp, hc, hh, hl, hq, he⟩ := hm
  have hNp := hr.1.pos
  rw [annot] at he
  by_cases hd : s.dst = []
  · have hp0 : p = [] := dst_nil hr (fun h => (hp h).2.1) hd
    subst hp0
    have hh' : h = h1 := by rw [hh]; simp [opsOf]
    refine ⟨_, ?_, mid_first (t := .BR (-1) n off) hlw hr (by rw [hh']; exact hq) rfl rfl rfl
      hn (by simp [posTok]) rfl ?_ ?_⟩
    · have hck : ∀ (f : Nat) (s1 : St), s1.dst = [] → check (f + 1) 0 s1 = .ok s1 := by
        intro f s1 h
        simp only [check, h]
      simp only [addBreak, hd, if_true, fuelOf]
      rw [hck _ _ rfl]
      simp only
      rw [push_ok (by simpa [St.N, hd] using hNp)]
      simp only [width]
    · intro t ht; simp at ht; subst ht; simp [isBB, isE]
    · simp only [fin, finTok, actA, width, List.nil_append, List.append_nil, List.singleton_append] at he ⊢
      rw [if_pos (by omega)]
      have e : (1 : Int) + n + -1 + dist 0 f = n + dist 0 f := by omega
      rw [e]; exact he
  · have hne := dst_ne hr hd
    obtain ⟨hi, _, hlo⟩ := hp hne
    have hlen : p.length < s.N := by
      rw [St.N, hlw]; exact room hR rfl hh hc hl
    have hb := hr.1.append hne hlen (.BR (-s.rsum) n off)
    have hrev : p.reverse.reverse = p := List.reverse_reverse p
    have hsum := hi.sum
    have hl1 := hi.l1
    have hwd := wd_nonneg hi.wf
    -- what check does
    obtain ⟨buf', k1, k2⟩ := check_sim p.reverse [.BR (-s.rsum) n off] 0
      { s with right := s.inc s.right, buf := upd s.buf (s.inc s.right) (.BR (-s.rsum) n off) }
      (fuelOf { s with right := s.inc s.right, buf := upd s.buf (s.inc s.right) (.BR (-s.rsum) n off) })
      a (by rw [hrev]; exact hb) (by rw [hrev]; exact hr.2) (by rw [hrev]; exact hi.gg)
      (by
        intro d m o hm
        rw [List.mem_reverse] at hm
        obtain ⟨x, y, rfl⟩ := List.append_of_mem hm
        have hp := hi.pos
        rw [pos_append] at hp
        have hw := hi.wf
        have h1 : 0 ≤ wd x := wd_nonneg (fun t ht => hw t (by simp [ht]))
        have h2 : 0 ≤ wd (.BR d m o :: y) := wd_nonneg (fun t ht => hw t (by simp at ht ⊢; tauto))
        rw [wd_append] at hsum
        rcases hp.2.1 with h | h
        · left; simp only; omega
        · right; exact h)
      (by
        have := fuelOf_ge (s := { s with right := s.inc s.right, buf := upd s.buf (s.inc s.right) (.BR (-s.rsum) n off) }) hb
        have e1 : wsum (p ++ [.BR (-s.rsum) n off]) = wsum p + 1 := by simp [wsum, weight]
        have e2 : wsum p.reverse = wsum p := by simp [wsum, List.map_reverse, List.sum_reverse]
        omega)
    obtain ⟨c1, c2, c3, c4, c5, c6, c7⟩ := chkR_facts s.rsum n (fun d => dist d (.brk n off :: f))
      (fun d => dist d f) (fun d => rfl) p.reverse 0 (fun d => d) (fun d => d) s.lsum (fun d => rfl)
      hi.ag (fun t ht => hi.wf t (List.mem_reverse.1 ht)) hl1 (by rw [hrev]; exact hi.pos)
      (by rw [hrev]; omega) (by rw [hrev]; exact hi.gg)
    have c2' := same_reverse c2
    rw [hrev] at c1 c2'
    simp only at k1 k2
    generalize hp' : (chkR s.rsum 0 p.reverse).reverse = p' at *
    have hc3 : chkR s.rsum 0 p.reverse = p'.reverse := by rw [← hp', List.reverse_reverse]
    rw [hc3] at c3
    have hlen' : p'.length = p.length := same_length c2'
    have hops : opsOf p' = opsOf p := same_ops c2'
    have hne' : p' ≠ [] := by
      rintro rfl
      simp at hlen'
      exact hne (List.length_eq_zero_iff.1 hlen'.symm)
    have hopb : opsOf (p' ++ [.BR (-s.rsum) n off]) = opsOf p ++ [.brk n off] := by
      rw [opsOf_append, hops]; rfl
    have hinc : s.inc s.right = (a + p'.length) % s.N := by
      have hl := List.length_pos_iff.2 hne
      rw [St.inc, hr.1.right hne, Nat.mod_add_mod, hlen']; congr 1; omega
    have hun : unres (.BR (-s.rsum) n off) = true := by simp [unres]; omega
    have hst : (stk s.N a p').reverse.length < s.N := by
      have := stk_length s.N p' a
      rw [List.length_reverse]
      omega
    refine ⟨{ s with right := s.inc s.right, buf := buf', dst := s.inc s.right :: (stk s.N a p').reverse,
                     rsum := s.rsum + n }, ?_, hlw, a, p' ++ [Tok.BR (-s.rsum) n off], h1, ⟨k2, ?_⟩,
      fun _ => ⟨⟨?_, hl1, ?_, ?_, ?_, ?_⟩, by simp, ?_⟩, ?_, ?_, ?_, hq, ?_⟩
    · simp only [addBreak, if_neg hd, k1]
      rw [push_ok (by exact hst)]
      rfl
    · show s.inc s.right :: (stk s.N a p').reverse = (stk s.N a (p' ++ [.BR (-s.rsum) n off])).reverse
      rw [stk_append, hinc, List.reverse_append]
      simp only [stk, hun, if_true, List.append_nil, List.reverse_singleton, List.singleton_append]
    · intro t ht
      rw [List.mem_append] at ht
      rcases ht with ht | ht
      · exact c4 t (by rw [hc3, List.mem_reverse]; exact ht)
      · simp at ht; subst ht; exact hn
    · rw [pos_append, same_wd c2', ← hsum]
      exact ⟨c5, Or.inl rfl, trivial⟩
    · rw [wd_append, same_wd c2']
      have : wd [Tok.BR (-s.rsum) n off] = n := by simp [wd, width]
      simp only; omega
    · rw [List.reverse_append]
      exact ⟨fun _ d => rfl, c3⟩
    · rw [GG_append]
      exact ⟨c6, fun _ _ => c7, trivial⟩
    · intro t ht; simp at ht; subst ht; simp [isBB, isE]
    · rw [hopb, checked_snoc _ _ rfl]; exact hc
    · rw [hopb, hh, List.append_assoc]
    · unfold lp at *
      rw [hopb, places_snoc]
      have : sameKind (opsOf p).getLast? (.brk n off) = false := by
        cases (opsOf p).getLast? with
        | none => rfl
        | some o => cases o <;> rfl
      rw [this, List.length_append, hlen']
      simp; omega
    · rw [fin_append]
      simp only [fin, finTok, actA, actTok, List.append_nil, List.append_assoc, List.singleton_append]
      rw [if_pos (by omega), ← c1]
      have e : s.rsum + n + -s.rsum + dist 0 f = n + dist 0 f := by omega
      rw [e]; exact he

end Mosml.Pretty
