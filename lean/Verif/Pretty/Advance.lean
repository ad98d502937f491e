import Verif.Pretty.Print

/-!
# Printing what cannot fit
-/

namespace Mosml.Pretty

open Mosml.Num (Str)

theorem inv_resolve {ls rs : Int} {t t' : Tok} {y : List Tok} (h : Inv ls rs (t :: y)) (hw : wf t')
    (hu : unres t' = false) (hwd : width t' = width t) (hp : posTok ls t') :
    Inv ls rs (t' :: y) := by
  refine ⟨?_, h.l1, ⟨hp, by rw [hwd]; exact h.pos.2⟩, ?_, ?_, ?_⟩
  · intro u hu
    rw [List.mem_cons] at hu
    rcases hu with rfl | hu
    · exact hw
    · exact h.wf u (List.mem_cons_of_mem _ hu)
  · rw [h.sum, wd_cons, wd_cons, hwd]
  · have := h.ag
    rw [List.reverse_cons] at this ⊢
    exact Ag_last (fun h => by rw [hu] at h; simp at h) _ _ _ this
  · refine ⟨by simp [hu], ?_⟩
    rw [hu]
    have := h.gg.2
    generalize (if unres t then isBB t else true) = b at this
    cases b with
    | true => exact this
    | false => exact GG_mono this

theorem fnl_append (b : Blk) : ∀ (l : List Blk),
    fnl (l ++ [b]) = .ok (l ++ [{ b with size := infinity }])
  | [] => rfl
  | c :: l => by
      have := fnl_append b l
      cases l with
      | nil => rfl
      | cons d l =>
        simp only [List.cons_append] at this ⊢
        have e : ∀ q : List Blk, fnl (c :: d :: q) = (match fnl (d :: q) with
          | .ok l => .ok (c :: l)
          | .error e => .error e) := fun _ => rfl
        rw [e, this]

theorem stk_unres {N a : Nat} {t : Tok} {y : List Tok} (h : unres t = true) :
    (stk N a (t :: y)).reverse = (stk N (a + 1) y).reverse ++ [a % N] := by
  rw [stk, h]; simp

theorem fuelOf_ge {s : St} {a : Nat} {p : List Tok} (h : Buf s.N s.left s.right s.buf a p) :
    wsum p + 1 ≤ fuelOf s := by
  have := h.fuel
  rw [fuelOf]; omega

theorem lp_head {t t' : Tok} {y : List Tok} (h : opsTok t' = opsTok t) (hl : lp (t :: y)) :
    lp (t' :: y) := by
  unfold lp at *
  rw [opsOf_cons] at hl ⊢
  rw [h]; exact hl

theorem places_bgn_bgn (c c' : Bool) (o o' : Int) (q : List Op) :
    places (.bgn c o :: .bgn c' o' :: q) = places (.bgn c' o' :: q) := by
  show 0 + places _ = _
  rw [Nat.zero_add]

theorem set_spec {s : St} {a : Nat} {t : Tok} {y : List Tok} {D : Nat → Int} {T : List ROp}
    {g : Page} {c : Int} (hr : Rep s a (t :: y)) (hi : Inv s.lsum s.rsum (t :: y))
    (hu : unres t = true) (hD : ∀ d, 0 ≤ D d) (hgt : s.rsum - s.lsum > s.sp)
    (hinf : s.sp < infinity)
    (he : exec s.lw (fin s.rsum D (t :: y) ++ T) (page s) = some g) (hq : Qb s.lw c (page s)) :
    ∃ s1 s', set s s.left = .ok s1 ∧ advance (fuelOf s1) s1 = .ok s' ∧
      Post s.lw s.rsum D T g c (t :: y) (wsum (t :: y) - 1) s' := by
  have hb : s.buf s.left = t := hr.1.head
  have hd := hr.2
  rw [stk_unres hu] at hd
  have hdl : s.dst.dropLast = (stk s.N (a + 1) y).reverse := by rw [hd]; simp
  have hwf := hi.wf t (by simp)
  have hpos := hi.pos.1
  have hl1 := hi.l1
  have hno : ¬ ∀ u ∈ t :: y, unres u = false := by
    intro h
    rw [h t (by simp)] at hu
    simp at hu
  -- a token that is resolved
  have key : ∀ (t' : Tok), unres t' = false → wf t' → width t' = width t → posTok s.lsum t' →
      opsTok t' = opsTok t → weight t' = weight t → ((∃ x, t = .S x) → ∃ x, t' = .S x) →
      exec s.lw (fin s.rsum D (t' :: y) ++ T) (page s) = some g →
      ∃ s', advance (fuelOf { s with dst := s.dst.dropLast, buf := upd s.buf s.left t' })
          { s with dst := s.dst.dropLast, buf := upd s.buf s.left t' } = .ok s' ∧
        Post s.lw s.rsum D T g c (t :: y) (wsum (t :: y) - 1) s' := by
    intro t' h1 h2 h3 h4 h5 h6 h7 h8
    have hb1 := hr.1.set t'
    have hf := fuelOf_ge (s := { s with dst := s.dst.dropLast, buf := upd s.buf s.left t' }) hb1
    obtain ⟨s', k1, k2⟩ := advance_spec
      (fuelOf { s with dst := s.dst.dropLast, buf := upd s.buf s.left t' })
      { s with dst := s.dst.dropLast, buf := upd s.buf s.left t' }
      a (t' :: y) D T g c (by simp)
      ⟨hb1, by rw [stk, h1]; exact hdl⟩ (inv_resolve hi h2 h1 h3 h4) (by omega) h8 hq
    refine ⟨s', k1, ?_⟩
    have h0 : (c : Int) = c + negs [] := by simp [negs]
    rw [h0] at k2
    refine k2.trans ?_ (lp_head h5) ?_ ?_ (fun h => absurd h hno)
    · rw [opsOf_cons, opsOf_cons, h5]; rfl
    · rintro ⟨x, hx⟩
      cases y with
      | nil =>
        simp at hx
        obtain ⟨x', hx'⟩ := h7 ⟨x, hx⟩
        exact ⟨x', by simp [hx']⟩
      | cons u y => exact ⟨x, by simpa using hx⟩
    · rw [bound, h1, wsum_cons, wsum_cons, h6]; simp
  cases t with
  | S str => simp [unres] at hu
  | E p u =>
    have hu0 : u ≠ 0 := by simpa [unres] using hu
    have hp0 : p = 0 := by rcases hwf.2 with h | h <;> omega
    obtain ⟨s', k1, k2⟩ := key (.E (p + u) 0) rfl ⟨by omega, Or.inr rfl⟩ rfl trivial rfl rfl
      (by rintro ⟨x, hx⟩; simp at hx) he
    exact ⟨_, s', by simp only [set, hb], k1, k2⟩
  | BR d n o =>
    have hd0 : d < 0 := by simpa [unres] using hu
    have hdd : d = -s.lsum := by
      rcases hpos with h | h
      · exact h
      · omega
    obtain ⟨s', k1, k2⟩ := key (.BR infinity n o) rfl hwf rfl (Or.inr (by decide)) rfl rfl
      (by rintro ⟨x, hx⟩; simp at hx) (by
        have := he
        simp only [fin, finTok, if_pos hd0, List.cons_append, List.nil_append] at this
        have hi0 : ¬ infinity < 0 := by decide
        simp only [fin, finTok, if_neg hi0, List.cons_append, List.nil_append]
        rw [exec] at this ⊢
        cases hist : (page s).ist with
        | nil => simp [hist] at this
        | cons i l =>
          simp only [hist] at this ⊢
          cases i with
          | fits => exact this
          | onePer _ => exact this
          | pack cur =>
            have hDD := hD (actA y 0)
            simp only at this ⊢
            rw [if_neg (by simp only [page]; omega)] at this
            rw [if_neg (by simp only [page]; omega)]
            exact this)
    exact ⟨_, s', by simp only [set, hb], k1, k2⟩
  | BB P U =>
    have hne : U ≠ [] := by simpa [unres] using hu
    obtain ⟨U0, b, rfl⟩ : ∃ U0 b, U = U0 ++ [b] := ⟨U.dropLast, U.getLast hne, (List.dropLast_concat_getLast hne).symm⟩
    have hbs : b.size = -s.lsum := hpos b (by simp)
    have he' : exec s.lw (fin s.rsum D (.BB P U0 :: y) ++ T)
        ⟨s.out, s.sp, blockInfo s { b with size := infinity } :: s.ist⟩ = some g := by
      have := he
      rw [fin] at this
      simp only [finTok, finU_last, List.cons_append, exec] at this
      have hDD := hD (actA y (1 + U0.length + P.length))
      have hi := info_eq s { b with size := infinity }
        (s.rsum + b.size + D (actA y (1 + U0.length + P.length)))
        ⟨fun _ => by omega, fun _ => hinf⟩
      rw [hi]
      rw [fin]
      simp only [finTok]
      exact this
    have hqb := Qb_block rfl { b with size := infinity } b.cons hq
    have hop : opsTok (.BB P (U0 ++ [b])) = .bgn b.cons b.off :: opsTok (.BB P U0) := by
      simp [opsTok]
    -- the state after set
    have main : ∀ d', (U0 = [] → d' = (stk s.N (a + 1) y).reverse) → (U0 ≠ [] → d' = s.dst) →
        ∃ s', advance (fuelOf { s with dst := d', buf := upd s.buf s.left (.BB P (U0 ++ [{ b with size := infinity }])) })
          { s with dst := d', buf := upd s.buf s.left (.BB P (U0 ++ [{ b with size := infinity }])) } = .ok s' ∧
        Post s.lw s.rsum D T g c (.BB P (U0 ++ [b]) :: y) (wsum (.BB P (U0 ++ [b]) :: y) - 1) s' := by
      intro d' hd1 hd2
      have hb1 := hr.1.set (.BB P (U0 ++ [{ b with size := infinity }]))
      have hf := fuelOf_ge (s := { s with dst := d', buf := upd s.buf s.left (.BB P (U0 ++ [{ b with size := infinity }])) }) hb1
      generalize fuelOf _ = F at hf ⊢
      obtain ⟨f, rfl⟩ : ∃ f, F = f + 1 := ⟨F - 1, by omega⟩
      have hA := advance_spec f
      rw [wsum_cons] at hf
      simp only [weight, List.length_append, List.length_cons, List.length_nil] at hf
      have hpt : printToken { s with dst := d', buf := upd s.buf s.left (.BB P (U0 ++ [{ b with size := infinity }])) }
          (.BB P (U0 ++ [{ b with size := infinity }])) =
          .ok ({ s with dst := d', buf := upd s.buf s.left (.BB P (U0 ++ [{ b with size := infinity }])), ist := blockInfo s { b with size := infinity } :: s.ist }, .BB P U0) := by
        simp only [printToken, printBB, List.getLast?_append, List.getLast?_singleton, Option.some_or,
          List.dropLast_concat]
        rfl
      rw [advance_cont (t := .BB P (U0 ++ [{ b with size := infinity }])) (z := infinity)
        (by simp [upd]) (by simp [tokenSize]) (by decide) hpt]
      simp only [upd_upd, width, add_zero]
      by_cases hall : P = [] ∧ U0 = []
      · obtain ⟨rfl, rfl⟩ := hall
        refine print_last hA (t := .BB [] [b]) (a := a) (t1 := .BB [] []) (hr.1.set _) rfl
          (fun _ h => by simp at h) ?_ ?_ (by simp at hf; omega) ?_ ?_
        · exact hd1 rfl
        · have := hi.tail
          simp only [width, add_zero] at this
          exact this
        · simpa [fin, finTok, finU, finP, page] using he'
        · simpa [opsTok, page] using hqb
      · have hlen : 0 < P.length + U0.length := by
          by_contra hc
          exact hall ⟨List.length_eq_zero_iff.1 (by omega), List.length_eq_zero_iff.1 (by omega)⟩
        obtain ⟨s', k1, k2⟩ := cont_more (f := f) hA (s := { s with
            dst := d', ist := blockInfo s { b with size := infinity } :: s.ist,
            buf := upd s.buf s.left (.BB P U0) })
          (a := a) (P := P) (U := U0) (y := y) (D := D) (T := T) (g := g)
          (c := c + negs [Op.bgn b.cons b.off])
          ⟨hr.1.set _, by
            show d' = (stk s.N a (.BB P U0 :: y)).reverse
            by_cases h0 : U0 = []
            · rw [hd1 h0, h0, stk]; rfl
            · rw [hd2 h0, hd, stk_unres (by simpa [unres] using h0)]⟩
          (hi.block hlen (fun _ h => h) (fun x hx => by simp [hx]) (fun _ => rfl))
          (by rw [wsum_cons]; simp only [weight]; omega) he' hqb
        refine ⟨s', k1, k2.trans ?_ ?_ ?_ ?_ (fun h => absurd h hno)⟩
        · rw [opsOf_cons, opsOf_cons, hop]; rfl
        · intro h
          unfold lp at *
          rw [opsOf_cons] at h ⊢
          rw [hop] at h
          have e : ∃ c' o' q, opsTok (.BB P U0) = .bgn c' o' :: q := by
            cases hx : (U0.reverse ++ P) with
            | nil =>
              have := congrArg List.length hx
              simp at this
              obtain ⟨rfl, rfl⟩ := this
              simp at hlen
            | cons b' q => exact ⟨b'.cons, b'.off, _, by rw [opsTok, hx, List.map_cons]⟩
          obtain ⟨c', o', q, hq'⟩ := e
          rw [hq'] at h ⊢
          simp only [List.cons_append] at h ⊢
          rw [places_bgn_bgn] at h
          exact h
        · rintro ⟨str, hs⟩
          cases y with
          | nil => simp at hs
          | cons u y => exact ⟨str, by simpa using hs⟩
        · refine Nat.le_trans (bound_le _) ?_
          rw [wsum_cons, wsum_cons]
          simp only [weight, List.length_append, List.length_cons, List.length_nil]
          omega
    cases U0 with
    | nil =>
      obtain ⟨s', k1, k2⟩ := main _ (fun _ => hdl) (fun h => absurd rfl h)
      exact ⟨_, s', by simp only [set, hb, List.nil_append], k1, k2⟩
    | cons b0 U0 =>
      obtain ⟨s', k1, k2⟩ := main s.dst (fun h => by simp at h) (fun _ => rfl)
      refine ⟨_, s', ?_, k1, k2⟩
      have hf := fnl_append b U0
      simp only [set, hb, List.cons_append]
      cases hU : U0 ++ [b] with
      | nil => simp at hU
      | cons x xs => rw [hU] at hf; simp only [hf]

theorem stk_mem {N i : Nat} : ∀ {p : List Tok} {a : Nat}, i ∈ stk N a p →
    ∃ j, j < p.length ∧ i = (a + j) % N
  | [], a, h => by simp [stk] at h
  | t :: y, a, h => by
      rw [stk, List.mem_append] at h
      rcases h with h | h
      · split at h
        · simp at h; exact ⟨0, by simp, by simpa using h⟩
        · simp at h
      · obtain ⟨j, h1, h2⟩ := stk_mem h
        exact ⟨j + 1, by simp; omega, by rw [h2]; congr 1; omega⟩

/-- What is pending after a string has been added. -/
def Pend (lw : Nat) (rs : Int) (D : Nat → Int) (T : List ROp) (g : Page) (c : Int)
    (p : List Tok) (s' : St) : Prop :=
  s'.lw = lw ∧ s'.rsum = rs ∧
    ((∃ a' p' h, Rep s' a' p' ∧ Inv s'.lsum rs p' ∧ s'.dst ≠ [] ∧ opsOf p = h ++ opsOf p' ∧
      (lp p → lp p') ∧ lastS p' ∧ exec lw (fin rs D p' ++ T) (page s') = some g ∧
      Qb lw (c + negs h) (page s') ∧ rs - s'.lsum ≤ s'.sp) ∨
    (s'.dst = [] ∧ exec lw T (page s') = some g ∧ Qb lw (c + negs (opsOf p)) (page s') ∧
      ∃ a', Buf s'.N s'.left s'.right s'.buf a' []))

theorem checkStream_spec (lw : Nat) (rs : Int) (D : Nat → Int) (T : List ROp) (g : Page)
    (hD : ∀ d, 0 ≤ D d) : ∀ (f : Nat) (s : St) (a : Nat) (p : List Tok) (c : Int),
    s.lw = lw → s.rsum = rs → Rep s a p → Inv s.lsum rs p → s.dst ≠ [] → lastS p →
    wsum p + 1 ≤ f → exec lw (fin rs D p ++ T) (page s) = some g → Qb lw c (page s) →
    lw + (c + negs (opsOf p)) < infinity →
    ∃ s', checkStream f s = .ok s' ∧ Pend lw rs D T g c p s'
  | 0, _, _, _, _, _, _, _, _, _, _, hf, _, _, _ => by omega
  | f + 1, s, a, p, c, hlw, hrs, hr, hi, hd, hls, hf, he, hq, hinf => by
      have hne : p ≠ [] := by
        rintro rfl
        simp [lastS] at hls
      by_cases hgt : s.rsum - s.lsum > s.sp
      · obtain ⟨t, y, rfl⟩ : ∃ t y, p = t :: y := List.exists_cons_of_ne_nil hne
        have hsp : s.sp < infinity := by
          have := hq.1
          have := negs_nonneg (opsOf (t :: y))
          simp only [page] at *
          omega
        -- after advancing
        have fin : ∀ s2 : St, Post lw rs D T g c (t :: y) (wsum (t :: y) - 1) s2 →
            ∃ s', (if coincide s2 then Except.ok s2 else checkStream f s2) = .ok s' ∧
              Pend lw rs D T g c (t :: y) s' := by
          intro s2 hp
          obtain ⟨h1, h2, h3⟩ := hp
          rcases h3 with ⟨a', p', h, k1, k2, ⟨u, z, k3, k3'⟩, k4, k5, k6, k7, k8, k9, k10⟩ | ⟨k1, k2, k3, k4, k5⟩
          · subst k3
            have hls' := k6 hls
            have hz : z ≠ [] := by
              rintro rfl
              obtain ⟨str, hs⟩ := hls'
              simp at hs
              rw [hs] at k3'
              simp [unres] at k3'
            rw [coincide_ne (k1.1.ne hz)]
            have hd2 : s2.dst ≠ [] := by
              rw [k1.2, stk_unres k3']; simp
            have hw : 0 < wsum (t :: y) := by
              rw [wsum_cons]; have := weight_pos t; omega
            obtain ⟨s', m1, m2, m3, m4⟩ := checkStream_spec lw rs D T g hD f s2 a' (u :: z) (c + negs h)
              h1 h2 k1 k2 hd2 hls' (by omega) k8 k9 (by
                have := congrArg negs k4
                rw [negs_append] at this
                omega)
            refine ⟨s', by simpa using m1, m2, m3, ?_⟩
            rcases m4 with ⟨a2, p2, h', n1, n2, n3, n4, n5, n6, n7, n8, n9⟩ | ⟨n1, n2, n3, n4⟩
            · left
              refine ⟨a2, p2, h ++ h', n1, n2, n3, ?_, fun hh => n5 (k5 hh), n6, n7, ?_, n9⟩
              · rw [k4, n4, List.append_assoc]
              · rw [negs_append, ← add_assoc]; exact n8
            · right
              refine ⟨n1, n2, ?_, n4⟩
              rw [k4, negs_append, ← add_assoc]; exact n3
          · rw [k4]
            exact ⟨s2, rfl, h1, h2, Or.inr ⟨k1, k2, k3, k5 hls⟩⟩
        subst hlw hrs
        by_cases hu : unres t = true
        · have hgl : s.dst.getLast? = some s.left := by
            rw [hr.2, stk_unres hu, hr.1.left]; simp
          obtain ⟨s1, s2, k1, k2, k3⟩ := set_spec hr hi hu hD hgt hsp he hq
          obtain ⟨s', m1, m2⟩ := fin s2 k3
          refine ⟨s', ?_, m2⟩
          simp only [checkStream]
          rw [if_pos hgt, hgl]
          simp only [if_true, k1, k2]
          exact m1
        · have hu' : unres t = false := by simpa using hu
          have hdst : s.dst = (stk s.N (a + 1) y).reverse := by rw [hr.2, stk, hu']; rfl
          obtain ⟨i, hgl⟩ : ∃ i, s.dst.getLast? = some i :=
            ⟨_, List.getLast?_eq_some_getLast hd⟩
          have hil : s.left ≠ i := by
            have hm := List.mem_of_getLast? hgl
            rw [hdst, List.mem_reverse] at hm
            obtain ⟨j, h1, h2⟩ := stk_mem hm
            rw [hr.1.left, h2, show a + 1 + j = a + (j + 1) by omega]
            intro hh
            have hlen := hr.1.len
            simp at hlen
            have := mod_inj (N := s.N) (a := a) (i := 0) (j := j + 1) hr.1.pos (by omega) hh
            omega
          obtain ⟨s2, k2, k3⟩ := advance_spec (fuelOf s) s a (t :: y) D T g c hne hr hi
            (by have := fuelOf_ge hr.1; omega) he hq
          have hbd : bound (t :: y) = wsum (t :: y) - 1 := by rw [bound, hu']; rfl
          rw [hbd] at k3
          obtain ⟨s', m1, m2⟩ := fin s2 k3
          refine ⟨s', ?_, m2⟩
          simp only [checkStream]
          rw [if_pos hgt, hgl]
          simp only [if_neg hil, k2]
          exact m1
      · refine ⟨s, ?_, hlw, hrs, Or.inl ⟨a, p, [], hr, hi, hd, rfl, id, hls, he, ?_, by omega⟩⟩
        · simp only [checkStream]
          rw [if_neg hgt]
        · simpa [negs] using hq

end Mosml.Pretty
