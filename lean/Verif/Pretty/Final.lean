import Verif.Pretty.Sim

/-!
# All calls, and the end
-/

namespace Mosml.Pretty

open Mosml.Num (Str)

theorem steps_mid {lw : Nat} {g : Page} : ∀ (f h : List Op) (s : St) (e : Nat),
    Roomy lw (h ++ f) → lw + negs (h ++ f) < infinity → Nested e f → Mid lw g h f s →
    ∃ s', steps s f = .ok s' ∧ Mid lw g (h ++ f) [] s'
  | [], h, s, e, _, _, _, hm => ⟨s, rfl, by rw [List.append_nil]; exact hm⟩
  | o :: f, h, s, e, hR, hI, hN, hm => by
      have hass : h ++ o :: f = (h ++ [o]) ++ f := by simp
      have key : ∀ (s1 : St) (e1 : Nat), step s o = .ok s1 → Nested e1 f → Mid lw g (h ++ [o]) f s1 →
          ∃ s', steps s (o :: f) = .ok s' ∧ Mid lw g (h ++ o :: f) [] s' := by
        intro s1 e1 hs hN1 hm1
        rw [hass] at hR hI ⊢
        obtain ⟨s', k1, k2⟩ := steps_mid f (h ++ [o]) s1 e1 hR hI hN1 hm1
        refine ⟨s', ?_, k2⟩
        simp only [steps, hs]
        exact k1
      cases o with
      | str t =>
        obtain ⟨s1, k1, k2⟩ := step_str hR hI hN hm
        exact key s1 e k1 hN k2
      | bgn c o =>
        obtain ⟨s1, k1, k2⟩ := step_bgn hR hm
        exact key s1 (e + 1) k1 hN k2
      | fin =>
        obtain ⟨s1, k1, k2⟩ := step_fin hR hm
        exact key s1 (e - 1) k1 hN.2 k2
      | brk n o =>
        obtain ⟨s1, k1, k2⟩ := step_brk hN.2.1 hR hm
        exact key s1 e k1 hN.2.2 k2

/-! ## How many blocks are open -/

def actR : List ROp → Nat → Nat
  | [], d => d
  | .bgn _ _ _ :: r, d => actR r (d + 1)
  | .fin :: r, d => actR r (d - 1)
  | _ :: r, d => actR r d

theorem actR_append (x y : List ROp) (d : Nat) : actR (x ++ y) d = actR y (actR x d) := by
  induction x generalizing d with
  | nil => rfl
  | cons o x ih => cases o <;> exact ih _

theorem exec_depth (lw : Nat) : ∀ (r : List ROp) (pg g : Page), exec lw r pg = some g →
    g.ist.length = actR r pg.ist.length
  | [], pg, g, h => by simp [exec] at h; rw [h]; rfl
  | .str s :: r, pg, g, h => by
      rw [exec] at h
      have := exec_depth lw r _ g h
      rw [this]; rfl
  | .bgn z c o :: r, pg, g, h => by
      have := exec_depth lw r _ g h
      rw [this]; rfl
  | .fin :: r, pg, g, h => by
      rw [exec] at h
      cases hi : pg.ist with
      | nil => simp [hi] at h
      | cons i l =>
        simp only [hi] at h
        have := exec_depth lw r _ g h
        rw [this]; rfl
  | .brk z n o :: r, pg, g, h => by
      rw [exec] at h
      cases hi : pg.ist with
      | nil => simp [hi] at h
      | cons i l =>
        simp only [hi] at h
        cases i with
        | fits => have := exec_depth lw r _ g h; rw [this]; rfl
        | onePer c => have := exec_depth lw r _ g h; rw [this]; rfl
        | pack c =>
          simp only at h
          split at h
          · have := exec_depth lw r _ g h; rw [this]; rfl
          · have := exec_depth lw r _ g h; rw [this]; rfl

theorem actR_finU (rs : Int) : ∀ (U : List Blk) (D : Nat → Int) (d : Nat),
    actR (finU rs D U) d = d + U.length
  | [], _, _ => rfl
  | b :: U, D, d => by
      rw [finU, actR_append, actR_finU rs U]; simp [actR]; omega

theorem actR_finP : ∀ (P : List Blk) (d : Nat), actR (finP P) d = d + P.length
  | [], _ => rfl
  | b :: P, d => by
      have e : finP (b :: P) = .bgn b.size b.cons b.off :: finP P := rfl
      rw [e, actR, actR_finP P]; simp; omega

theorem actR_fins : ∀ (n d : Nat), actR (List.replicate n .fin) d = d - n
  | 0, _ => rfl
  | n + 1, d => by rw [List.replicate_succ, actR, actR_fins n]; omega

theorem actR_fin (rs : Int) (D : Nat → Int) : ∀ (p : List Tok) (d : Nat),
    actR (fin rs D p) d = actA p d
  | [], _ => rfl
  | t :: p, d => by
      rw [fin, actR_append, actR_fin rs D p, actA]
      congr 1
      cases t with
      | S s => rfl
      | BR _ _ _ => rfl
      | E p u => exact actR_fins _ _
      | BB P U => rw [finTok, actR_append, actR_finU, actR_finP, actTok]; omega

/-- Beyond the last token not known, what is known closes what it opens. -/
theorem Ag_at : ∀ (r : List Tok) (t : Tok) (q : List Tok) (c cu : Nat → Nat),
    Ag c cu (r ++ t :: q) → (∀ u ∈ r, unres u = false) → unres t = true →
    ∀ d, c (actA r.reverse (d + pcount t)) = cu d
  | [], t, q, c, cu, h, _, ht, d => h.1 ht d
  | u :: r, t, q, c, cu, h, hr, ht, d => by
      have := Ag_at r t q _ _ h.2 (fun v hv => hr v (List.mem_cons_of_mem _ hv)) ht d
      have hu := hr u (by simp)
      have e : ∀ d, actUTok u d = d := by
        intro d
        cases u with
        | S s => rfl
        | BR _ _ _ => rfl
        | BB P U => simp [unres] at hu; simp [actUTok, hu]
        | E p n => simp [unres] at hu; simp [actUTok, hu]
      simp only [e] at this
      rw [List.reverse_cons, actA_append]
      exact this

theorem last_unres : ∀ (p : List Tok), (∃ t ∈ p, unres t = true) →
    ∃ x t y, p = x ++ t :: y ∧ unres t = true ∧ ∀ u ∈ y, unres u = false
  | [], h => by simp at h
  | t :: p, h => by
      by_cases hp : ∃ u ∈ p, unres u = true
      · obtain ⟨x, u, y, h1, h2, h3⟩ := last_unres p hp
        exact ⟨t :: x, u, y, by rw [h1]; rfl, h2, h3⟩
      · refine ⟨[], t, p, rfl, ?_, ?_⟩
        · obtain ⟨u, hu, hu2⟩ := h
          rw [List.mem_cons] at hu
          rcases hu with rfl | hu
          · exact hu2
          · exact absurd ⟨u, hu, hu2⟩ hp
        · intro u hu
          by_contra hc
          exact hp ⟨u, hu, by simpa using hc⟩

theorem lastOk_resolved : ∀ (y : List Tok) (b : Bool), (∀ u ∈ y, unres u = false) →
    lastOk b y = b
  | [], _, _ => rfl
  | t :: y, b, h => by
      rw [lastOk, h t (by simp)]
      exact lastOk_resolved y b (fun u hu => h u (List.mem_cons_of_mem _ hu))

/-- If in the end no block is open, then all sizes are known. -/
theorem all_known {p : List Tok} {d : Nat} (hag : Ag (fun d => d) (fun d => d) p.reverse)
    (hl : lastOk true p = true) (h0 : actA p d = 0) : ∀ t ∈ p, unres t = false := by
  by_contra hc
  have hex : ∃ t ∈ p, unres t = true := by
    by_contra h
    apply hc
    intro t ht
    by_contra h2
    exact h ⟨t, ht, by simpa using h2⟩
  obtain ⟨x, t, y, rfl, ht, hy⟩ := last_unres p hex
  rw [lastOk_append, lastOk, lastOk_resolved y _ hy, if_pos ht] at hl
  rw [List.reverse_append, List.reverse_cons, List.append_assoc, List.singleton_append] at hag
  have := Ag_at y.reverse t x.reverse _ _ hag (fun u hu => hy u (List.mem_reverse.1 hu)) ht
  simp only [List.reverse_reverse] at this
  cases t with
  | BB P U =>
    have hU : 0 < U.length := by
      have : U ≠ [] := by simpa [unres] using ht
      exact List.length_pos_iff.2 this
    rw [actA_append, actA] at h0
    have h1 := this (actA x d + U.length)
    simp only [pcount, actTok] at h1 h0
    rw [show actA x d + U.length + P.length = actA x d + (P.length + U.length) by omega] at h1
    omega
  | _ => simp [isBB] at hl

theorem flush_mid {lw : Nat} {g : Page} {h : List Op} {s : St} (hm : Mid lw g h [] s)
    (hg : g.ist = []) : ∃ s', flush0 s = .ok s' ∧ page s' = g ∧ s'.lw = lw := by
  obtain ⟨hlw, a, p, h1, hr, hp, hc, hh, hl, hq, he⟩ := hm
  rw [annot, List.append_nil] at he
  by_cases hd : s.dst = []
  · have hp0 : p = [] := dst_nil hr (fun h => (hp h).2.1) hd
    subst hp0
    refine ⟨s, by rw [flush0, if_pos hd], ?_, hlw⟩
    simpa [fin, exec] using he
  · have hne := dst_ne hr hd
    obtain ⟨hi, _, _⟩ := hp hne
    have hrev : p.reverse.reverse = p := List.reverse_reverse p
    have hsum := hi.sum
    have hl1 := hi.l1
    obtain ⟨buf', k1, k2⟩ := check_sim p.reverse [] 0 s (fuelOf s) a
      (by rw [hrev, List.append_nil]; exact hr.1) (by rw [hrev]; exact hr.2) (by rw [hrev]; exact hi.gg)
      (by
        intro d m o hm
        rw [List.mem_reverse] at hm
        obtain ⟨x, y, rfl⟩ := List.append_of_mem hm
        have hp := hi.pos
        rw [pos_append] at hp
        have hw := hi.wf
        have h2 : 0 ≤ wd (.BR d m o :: y) := wd_nonneg (fun t ht => hw t (by simp at ht ⊢; tauto))
        rw [wd_append] at hsum
        rcases hp.2.1 with h | h
        · left; omega
        · right; exact h)
      (by
        have := fuelOf_ge hr.1
        have e2 : wsum p.reverse = wsum p := by simp [wsum, List.map_reverse, List.sum_reverse]
        omega)
    obtain ⟨c1, c2, c3, c4, c5, c6, c7⟩ := chkR_facts s.rsum 0 (fun _ => 0)
      (fun _ => 0) (fun d => by simp) p.reverse 0 (fun d => d) (fun d => d) s.lsum (fun d => rfl)
      hi.ag (fun t ht => hi.wf t (List.mem_reverse.1 ht)) hl1 (by rw [hrev]; exact hi.pos)
      (by rw [hrev]; omega) (by rw [hrev]; exact hi.gg)
    have c2' := same_reverse c2
    rw [hrev] at c1 c2'
    rw [List.append_nil] at k2
    generalize hp' : (chkR s.rsum 0 p.reverse).reverse = p' at *
    have hc3 : chkR s.rsum 0 p.reverse = p'.reverse := by rw [← hp', List.reverse_reverse]
    rw [hc3] at c3
    have hne' : p' ≠ [] := by
      rintro rfl
      have := same_length c2'
      exact hne (List.length_eq_zero_iff.1 this.symm)
    have he' : exec lw (fin s.rsum (fun _ => 0) p' ++ []) (page s) = some g := by
      rw [List.append_nil]
      rw [add_zero] at c1
      rw [← c1]
      exact he
    have hall : ∀ t ∈ p', unres t = false := by
      refine all_known (d := (page s).ist.length) c3 c7 ?_
      have := exec_depth lw _ _ _ he'
      rw [List.append_nil, actR_fin, hg] at this
      exact this.symm
    obtain ⟨s', m1, m2⟩ := advance_spec
      (fuelOf { s with buf := buf', dst := (stk s.N a p').reverse })
      { s with buf := buf', dst := (stk s.N a p').reverse } a p' (fun _ => 0) [] g (negs h1) hne'
      ⟨k2, rfl⟩
      ⟨fun t ht => c4 t (by rw [hc3, List.mem_reverse]; exact ht), hl1, c5,
        by rw [same_wd c2']; exact hsum, c3, c6⟩
      (by
        have := fuelOf_ge (s := { s with buf := buf', dst := (stk s.N a p').reverse }) k2
        omega)
      (by rw [← hlw] at he'; exact he') (by rw [← hlw] at hq; exact hq)
    refine ⟨s', ?_, ?_, ?_⟩
    · simp only [flush0, if_neg hd, k1]
      exact m1
    · rcases m2.2.2 with ⟨_, _, _, _, _, _, _, _, _, _, _, _, hno⟩ | ⟨_, hex, _⟩
      · exact absurd hall hno
      · simpa [exec] using hex
    · rw [m2.1]; exact hlw

theorem nested_exec (lw : Nat) : ∀ (ops : List Op) (pg : Page), Nested pg.ist.length ops →
    ∃ g, exec lw (annot ops) pg = some g ∧ g.ist = []
  | [], pg, h => ⟨pg, rfl, List.length_eq_zero_iff.1 h⟩
  | .str s :: r, pg, h => nested_exec lw r { pg with out := _, sp := _ } h
  | .bgn c o :: r, pg, h => nested_exec lw r { pg with ist := _ :: pg.ist } h
  | .fin :: r, pg, h => by
      simp only [annot, exec]
      cases hi : pg.ist with
      | nil => rw [hi] at h; exact absurd h.1 (by simp)
      | cons i l =>
        rw [hi] at h
        exact nested_exec lw r { pg with ist := l } h.2
  | .brk n o :: r, pg, h => by
      simp only [annot, exec]
      cases hi : pg.ist with
      | nil => rw [hi] at h; exact absurd h.1 (by simp)
      | cons i l =>
        have key : ∀ out sp, ∃ g, exec lw (annot r) ⟨out, sp, i :: l⟩ = some g ∧ g.ist = [] :=
          fun out sp => nested_exec lw r ⟨out, sp, i :: l⟩ (by rw [hi] at h; exact h.2.2)
        cases i with
        | fits => exact key _ _
        | onePer c => exact key _ _
        | pack c =>
          simp only
          split
          · exact key _ _
          · exact key _ _

/-- A fresh stream, whose consumer has received `o0`. -/
def start (lw : Nat) (o0 : Str) : St := ⟨lw, fun _ => initialToken, [], [], lw, 0, 0, 0, 0, o0⟩

theorem main0 (lw : Nat) (ops : List Op) (o0 : Str) (h5 : 5 ≤ lw) (hN : Nested 0 ops)
    (hR : Roomy lw ops) (hI : lw + negs ops < infinity) :
    ∃ g s1 s2, exec lw (annot ops) ⟨o0, lw, []⟩ = some g ∧ steps (start lw o0) ops = .ok s1 ∧
      flush0 s1 = .ok s2 ∧ page s2 = g ∧ s2.lw = lw := by
  obtain ⟨g, hg, hg0⟩ := nested_exec lw ops ⟨o0, lw, []⟩ hN
  have hm : Mid lw g [] ops (start lw o0) := by
    refine ⟨rfl, 0, [], [], ⟨⟨?_, ?_, fun h => absurd rfl h, by simp, by simp, ?_⟩, rfl⟩,
      fun h => absurd rfl h, ?_, rfl, by simp [lp], ⟨?_, ?_⟩, hg⟩
    · simp [St.N, start]; omega
    · simp [start]
    · intro j _; exact ⟨rfl, rfl⟩
    · simp [opsOf, checked, negs]
    · simp [page, negs, start]
    · intro i hi; simp [page, start] at hi
  obtain ⟨s1, k1, k2⟩ := steps_mid ops [] _ 0 hR hI hN hm
  obtain ⟨s2, k3, k4, k5⟩ := flush_mid k2 hg0
  exact ⟨g, s1, s2, hg, k1, k3, k4, k5⟩

theorem mk_start {lw : Nat} (h5 : 5 ≤ lw) : mk lw = .ok (start lw []) := by
  rw [mk, if_neg (by omega)]; rfl

/-- The pretty printer prints the layout. -/
theorem main (lw : Nat) (ops : List Op) (h5 : 5 ≤ lw) (hN : Nested 0 ops) (hR : Roomy lw ops)
    (hI : lw + negs ops < infinity) :
    ∃ out, layout lw ops = some out ∧ ppToString lw ops = .ok out := by
  obtain ⟨g, s1, s2, k0, k1, k2, k3, _⟩ := main0 lw ops [] h5 hN hR hI
  refine ⟨g.out, by rw [layout, k0]; rfl, ?_⟩
  simp only [ppToString, mk_start h5, k1, k2]
  rw [← k3]
  rfl

theorem exec_prefix (lw : Nat) (o0 : Str) : ∀ (r : List ROp) (o : Str) (sp : Int) (l : List Info),
    exec lw r ⟨o0 ++ o, sp, l⟩ =
      (exec lw r ⟨o, sp, l⟩).map (fun g => { g with out := o0 ++ g.out })
  | [], o, sp, l => rfl
  | .str s :: r, o, sp, l => by
      simp only [exec, List.append_assoc]; exact exec_prefix lw o0 r _ _ _
  | .bgn z c f :: r, o, sp, l => by
      simp only [exec]; exact exec_prefix lw o0 r _ _ _
  | .fin :: r, o, sp, l => by
      cases l with
      | nil => rfl
      | cons i l => simp only [exec]; exact exec_prefix lw o0 r _ _ _
  | .brk z n f :: r, o, sp, l => by
      cases l with
      | nil => rfl
      | cons i l =>
        cases i with
        | fits => simp only [exec, List.append_assoc]; exact exec_prefix lw o0 r _ _ _
        | onePer c => simp only [exec, List.append_assoc]; exact exec_prefix lw o0 r _ _ _
        | pack c =>
          simp only [exec, List.append_assoc]
          split
          · exact exec_prefix lw o0 r _ _ _
          · exact exec_prefix lw o0 r _ _ _

theorem places_length : ∀ (x : List Op), places x ≤ x.length
  | [] => by simp [places]
  | o :: x => by
      have := places_length x
      have := places_le o x
      simp; omega

theorem roomy_short {lw : Nat} {ops : List Op} (h : ops.length < 3 * lw) : Roomy lw ops := by
  intro a seg t e _
  have := places_length seg
  rw [e] at h
  simp at h
  omega

end Mosml.Pretty
