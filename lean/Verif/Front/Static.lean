import Verif.Front.Order

/-! A condition on the text of a program under which both orders agree. -/

namespace Mosml.Front

mutual
/-- In each application, only the first argument may have an effect: the others are
constants, variables, functions, and tuples, records, conditions and sequences of these. -/
def mild : Exp → Bool
  | .const _ | .var _ | .prim1 _ | .prim2 _ | .con _ => true
  | .fn _ _ b => mild b
  | .app f a => ((normApp f []).2.isEmpty || (isSafe a && noWhile a)) && mild f && mild a
  | .tuple es => milds es
  | .record _ es => milds es
  | .par e => mild e
  | .lett _ e b => mild e && mild b
  | .andalso a b => mild a && mild b
  | .orelse a b => mild a && mild b
  | .cond c a b => mild c && mild a && mild b
  | .seq a b => mild a && mild b
  | .whil c a => mild c && mild a
  | .raise e => mild e
  | .handle e _ b => mild e && mild b
def milds : List Exp → Bool
  | [] => true
  | e :: es => mild e && milds es
end

theorem milds_mem {es : List Exp} (h : milds es = true) : ∀ e ∈ es, mild e = true := by
  induction es with
  | nil => simp
  | cons a es ih =>
    simp only [milds, Bool.and_eq_true] at h
    intro e he
    rcases List.mem_cons.1 he with rfl | he
    · exact h.1
    · exact ih h.2 e he

/-- Values whose functions are all of this kind. -/
inductive SOk : SVal → Prop
  | int {z} : SOk (.int z)
  | str {s} : SOk (.str s)
  | loc {l} : SOk (.loc l)
  | block {t vs} (h : ∀ v ∈ vs, SOk v) : SOk (.block t vs)
  | clos {ρ x xs b} (h : ∀ y v, look ρ y = some v → SOk v) (hm : mild b = true)
      (hg : Good (fun y => y = x ∨ y ∈ xs ∨ (look ρ y).isSome) b) : SOk (.clos ρ x xs b)
  | prim1 {k} : SOk (.prim1 k)
  | prim2 {k} : SOk (.prim2 k)
  | con {k} : SOk (.con k)

def EOk (ρ : List (Name × SVal)) : Prop := ∀ y v, look ρ y = some v → SOk v
def StOk (st : St SVal) : Prop := ∀ v ∈ st.cells, SOk v
def ROk : Res SVal → Prop
  | .val v => SOk v
  | .exn v => SOk v
def RsOk : Ress SVal → Prop
  | .vals vs => ∀ v ∈ vs, SOk v
  | .stop v => SOk v

abbrev Dm (ρ : List (Name × SVal)) : Name → Prop := fun y => (look ρ y).isSome

theorem EOk.bind {ρ x v} (h : EOk ρ) (hv : SOk v) : EOk ((x, v) :: ρ) := by
  intro y w hy
  by_cases e : y = x
  · simp [look, e] at hy; subst hy; exact hv
  · simp only [look, e, if_false] at hy; exact h y w hy

theorem Good.dm {ρ : List (Name × SVal)} {x v e} (h : Good (fun y => y = x ∨ Dm ρ y) e) :
    Good (Dm ((x, v) :: ρ)) e :=
  h.mono fun y hy => by
    by_cases e : y = x
    · simp [Dm, look, e]
    · simpa [Dm, look, e] using hy

theorem SOk.constBlock {t : Nat} : SOk (.block t []) := .block (by simp)

theorem SOk.const (c : Const) : SOk c.toS := by
  apply Const.rec (motive_1 := fun c => SOk c.toS)
    (motive_2 := fun cs => ∀ v ∈ Const.toSs cs, SOk v)
  case int => intro z; exact .int
  case str => intro z; exact .str
  case block => intro t cs ih; exact .block ih
  case nil => intro v h; simp [Const.toSs] at h
  case cons =>
    intro c cs h1 h2 v h
    simp only [Const.toSs, List.mem_cons] at h
    rcases h with rfl | h
    · exact h1
    · exact h2 v h

theorem sem1_ok {k v st r st'} (h : sem1 sDom k v st = some (r, st')) (hv : SOk v) (hs : StOk st) :
    ROk r ∧ StOk st' := by
  cases k with
  | ref =>
    simp [sem1] at h
    obtain ⟨rfl, rfl⟩ := h
    refine ⟨.loc, fun w hw => ?_⟩
    simp only [List.mem_append, List.mem_singleton] at hw
    rcases hw with hw | rfl
    · exact hs w hw
    · exact hv
  | deref =>
    simp only [sem1] at h
    split at h
    · simp only [Option.map_eq_some_iff, Prod.mk.injEq] at h
      obtain ⟨w, hw, rfl, rfl⟩ := h
      exact ⟨hs w (List.mem_of_getElem? hw), hs⟩
    · simp at h
  | print =>
    simp only [sem1] at h
    split at h
    · cases h
      exact ⟨.constBlock, hs⟩
    · simp at h

theorem sem2_ok {k v w st r st'} (h : sem2 sDom k v w st = some (r, st'))
    (hw : SOk w) (hs : StOk st) : ROk r ∧ StOk st' := by
  cases k with
  | add =>
    simp only [sem2] at h
    split at h
    · cases h
      split_ifs
      · exact ⟨.int, hs⟩
      · refine ⟨.block ?_, hs⟩
        intro v hv
        simp only [List.mem_cons, List.not_mem_nil, or_false] at hv
        rcases hv with rfl | rfl
        · exact .str
        · exact .constBlock
    · simp at h
  | assign =>
    simp only [sem2] at h
    split at h
    · split_ifs at h
      cases h
      refine ⟨.constBlock, fun u hu => ?_⟩
      rcases List.mem_or_eq_of_mem_set hu with hu | rfl
      · exact hs u hu
      · exact hw
    · simp at h
  | eq =>
    simp only [sem2] at h
    split at h
    · cases h
      exact ⟨.constBlock, hs⟩
    · simp at h

/-! ## Safe expressions have a value -/

theorem pureVals_some {ρ : List (Name × SVal)} {es : List Exp}
    (h : ∀ e ∈ es, (pureVal ρ e).isSome) : (pureVals ρ es).isSome := by
  induction es with
  | nil => simp [pureVals]
  | cons e es ih =>
    obtain ⟨v, hv⟩ := Option.isSome_iff_exists.1 (h e (by simp))
    obtain ⟨vs, hvs⟩ := Option.isSome_iff_exists.1 (ih fun e he => h e (by simp [he]))
    simp [pureVals, hv, hvs]

theorem pure_some {ρ : List (Name × SVal)} {D e} (hg : Good D e) (hD : ∀ x, D x → Dm ρ x)
    (hs : isSafe e = true) (hw : noWhile e = true) : (pureVal ρ e).isSome := by
  induction hg with
  | const => simp [pureVal]
  | var h => simpa [pureVal] using hD _ h
  | prim1 | prim2 | con | fn => simp [pureVal]
  | app | lett | raise | handle => simp [isSafe] at hs
  | whil => simp [noWhile] at hw
  | tuple h o ih =>
    simp only [isSafe, noWhile] at hs hw
    have := pureVals_some (ρ := ρ) fun e he => ih e he hD (isSafes_mem hs e he) (noWhiles_mem hw e he)
    simpa [pureVal] using this
  | record h o _ _ ih =>
    simp only [isSafe, noWhile] at hs hw
    have := pureVals_some (ρ := ρ) fun e he => ih e he hD (isSafes_mem hs e he) (noWhiles_mem hw e he)
    simpa [pureVal] using this
  | par h ih =>
    simp only [isSafe, noWhile] at hs hw
    simpa [pureVal] using ih hD hs hw
  | andalso h1 h2 ih1 ih2 =>
    simp only [isSafe, noWhile, Bool.and_eq_true] at hs hw
    obtain ⟨v, hv⟩ := Option.isSome_iff_exists.1 (ih1 hD hs.1 hw.1)
    have := ih2 hD hs.2 hw.2
    simp only [pureVal, hv]
    split_ifs
    · exact this
    · rfl
  | orelse h1 h2 ih1 ih2 =>
    simp only [isSafe, noWhile, Bool.and_eq_true] at hs hw
    obtain ⟨v, hv⟩ := Option.isSome_iff_exists.1 (ih1 hD hs.1 hw.1)
    have := ih2 hD hs.2 hw.2
    simp only [pureVal, hv]
    split_ifs
    · rfl
    · exact this
  | cond h1 h2 h3 ih1 ih2 ih3 =>
    simp only [isSafe, noWhile, Bool.and_eq_true] at hs hw
    obtain ⟨v, hv⟩ := Option.isSome_iff_exists.1 (ih1 hD hs.1.1 hw.1.1)
    simp only [pureVal, hv]
    split_ifs
    · exact ih2 hD hs.1.2 hw.1.2
    · exact ih3 hD hs.2 hw.2
  | seq h1 h2 ih1 ih2 =>
    simp only [isSafe, noWhile, Bool.and_eq_true] at hs hw
    obtain ⟨v, hv⟩ := Option.isSome_iff_exists.1 (ih1 hD hs.1 hw.1)
    simp only [pureVal, hv]
    exact ih2 hD hs.2 hw.2

/-- Whether arguments follow matters only for applications. -/
theorem chk_head {n : Nat} : ∀ {e : Exp}, (normApp e []).2.isEmpty = true → ∀ s ρ st,
    chk s n ρ e st = chk false n ρ e st := by
  induction n with
  | zero => intros; rfl
  | succ n ih =>
    intro e h s ρ st
    cases e with
    | app f a =>
      rw [normApp, show [a] = [] ++ [a] from rfl, normApp_append] at h
      simp at h
    | par e => rw [normApp] at h; rw [chk, chk]; exact ih h s ρ st
    | _ => simp [chk]

/-! ## The check succeeds -/

/-- The claim. -/
def Succ (n : Nat) : Prop := ∀ ρ e st r st', sev .sml n ρ e st = some (r, st') →
  mild e = true → Good (Dm ρ) e → EOk ρ → StOk st →
    chk false n ρ e st = some (r, st') ∧ ROk r ∧ StOk st'

variable {n : Nat} {ρ : List (Name × SVal)}

theorem Succ.list (ih : Succ n) (hρ : EOk ρ) {es : List Exp} (hm : ∀ e ∈ es, mild e = true)
    (hg : ∀ e ∈ es, Good (Dm ρ) e) {st rs st'} (hs : StOk st)
    (h : evalLR (sev .sml n ρ) es st = some (rs, st')) :
    evalLR (chk false n ρ) es st = some (rs, st') ∧ RsOk rs ∧ StOk st' := by
  induction es generalizing st rs with
  | nil =>
    obtain ⟨rfl, rfl⟩ := evalLR_nil h
    exact ⟨rfl, by simp [RsOk], hs⟩
  | cons e es ih2 =>
    rcases evalLR_cons h with ⟨x, h1, rfl⟩ | ⟨v, st1, rs', h1, h2, h3⟩
    · obtain ⟨c, ro, so⟩ := ih _ _ _ _ _ h1 (hm e (by simp)) (hg e (by simp)) hρ hs
      exact ⟨by rw [evalLR, c], ro, so⟩
    · obtain ⟨c, ro, so⟩ := ih _ _ _ _ _ h1 (hm e (by simp)) (hg e (by simp)) hρ hs
      obtain ⟨c2, ro2, so2⟩ := ih2 (fun e he => hm e (by simp [he])) (fun e he => hg e (by simp [he]))
        so h2
      rcases h3 with ⟨vs, rfl, rfl⟩ | ⟨x, rfl, rfl⟩
      · refine ⟨by simp [evalLR, c, c2], ?_, so2⟩
        intro u hu
        rcases List.mem_cons.1 hu with rfl | hu
        · exact ro
        · exact ro2 u hu
      · exact ⟨by simp [evalLR, c, c2], ro2, so2⟩

theorem Succ.apply (ih : Succ n) {g v st r st'} (h : sapply (sev .sml n) g v st = some (r, st'))
    (hg : SOk g) (hv : SOk v) (hs : StOk st) :
    sapply (chk false n) g v st = some (r, st') ∧ ROk r ∧ StOk st' := by
  cases hg with
  | int | str | loc | block => simp [sapply] at h
  | @clos ρ x xs b h1 h2 h3 =>
    cases xs with
    | nil =>
      exact ih _ _ _ _ _ h h2 ((h3.mono fun y hy => by simpa using hy).dm) (EOk.bind h1 hv) hs
    | cons y ys =>
      simp only [sapply, Option.some.injEq, Prod.mk.injEq] at h
      obtain ⟨rfl, rfl⟩ := h
      refine ⟨rfl, .clos (EOk.bind h1 hv) h2 (h3.mono fun z hz => ?_), hs⟩
      by_cases e : z = x
      · simp [look, e]
      · simpa [look, e, or_assoc] using hz
  | prim1 =>
    rw [sapply] at h
    exact ⟨h, sem1_ok h hv hs⟩
  | prim2 =>
    have h' := h
    simp only [sapply] at h
    split at h
    · cases hv with
      | block hb => exact ⟨h', sem2_ok h (hb _ (by simp)) hs⟩
    · simp at h
  | @con k =>
    have h' := h
    simp only [sapply, Option.map_eq_some_iff, Prod.mk.injEq] at h
    obtain ⟨u, h1, rfl, rfl⟩ := h
    refine ⟨h', ?_, hs⟩
    cases k with
    | greedy t a =>
      cases hv with
      | block hb =>
        simp only [conSem] at h1
        split_ifs at h1
        cases h1
        exact .block hb
      | _ => simp [conSem] at h1
    | single => cases h1; exact hv
    | plain => cases h1; exact .block (by simpa using hv)

theorem byLabel_mem {labs : List Nat} {vs : List SVal} {v} (h : v ∈ byLabel labs vs) : v ∈ vs := by
  simp only [byLabel, List.mem_map, List.mem_insertionSort] at h
  obtain ⟨⟨a, b⟩, hab, rfl⟩ := h
  exact (List.of_mem_zip hab).2

theorem succ_all (n : Nat) : Succ n := by
  induction n with
  | zero => intro ρ e st r st' h; exact absurd h sev_zero
  | succ n ih =>
    intro ρ e st r st' h hm hg hρ hs
    cases e with
    | const c => rw [sev] at h; cases h; exact ⟨rfl, .const c, hs⟩
    | var x =>
      rw [sev] at h
      rw [chk]
      refine ⟨h, ?_⟩
      simp only [Option.map_eq_some_iff, Prod.mk.injEq] at h
      obtain ⟨v, hv, rfl, rfl⟩ := h
      exact ⟨hρ x v hv, hs⟩
    | prim1 k => rw [sev] at h; cases h; exact ⟨rfl, .prim1, hs⟩
    | prim2 k => rw [sev] at h; cases h; exact ⟨rfl, .prim2, hs⟩
    | con k => rw [sev] at h; cases h; exact ⟨rfl, .con, hs⟩
    | fn x xs b =>
      rw [sev] at h; cases h
      rw [mild] at hm
      cases hg with
      | fn hb => exact ⟨rfl, .clos hρ hm hb, hs⟩
    | app f a =>
      rw [sev] at h
      simp only [if_true] at h
      simp only [mild, Bool.and_eq_true, Bool.or_eq_true] at hm
      cases hg with
      | app hf ha of oa hk =>
        have hd : ∀ st x, chk false n ρ f st = some x →
            chk (false || (pureVal ρ a).isNone) n ρ f st = some x := by
          intro st x hx
          rcases hm.1.1 with h1 | h1
          · rw [chk_head h1]; exact hx
          · have := pure_some ha (fun _ h => h) h1.1 h1.2
            obtain ⟨v, hv⟩ := Option.isSome_iff_exists.1 this
            simpa [hv] using hx
        rw [chk]
        rcases thenDo_some h with ⟨g, st1, h1, h2⟩ | ⟨x, h1, rfl⟩
        · obtain ⟨c, ro, so⟩ := ih _ _ _ _ _ h1 hm.1.2 hf hρ hs
          rw [hd _ _ c]
          rcases thenDo_some h2 with ⟨v, st2, h3, h4⟩ | ⟨x, h3, rfl⟩
          · obtain ⟨c2, ro2, so2⟩ := ih _ _ _ _ _ h3 hm.2 ha hρ so
            obtain ⟨c3, ro3, so3⟩ := ih.apply h4 ro ro2 so2
            exact ⟨by simp [c2, c3], ro3, so3⟩
          · obtain ⟨c2, ro2, so2⟩ := ih _ _ _ _ _ h3 hm.2 ha hρ so
            exact ⟨by simp [c2], ro2, so2⟩
        · obtain ⟨c, ro, so⟩ := ih _ _ _ _ _ h1 hm.1.2 hf hρ hs
          rw [hd _ _ c]
          exact ⟨by simp, ro, so⟩
    | tuple es =>
      rw [sev] at h
      rw [mild] at hm
      cases hg with
      | tuple hg ho =>
        rw [chk]
        rcases thenAll_some h with ⟨vs, st1, h1, h2⟩ | ⟨x, h1, rfl⟩
        · cases h2
          obtain ⟨c, ro, so⟩ := ih.list hρ (milds_mem hm) hg hs h1
          exact ⟨by simp [c], .block ro, so⟩
        · obtain ⟨c, ro, so⟩ := ih.list hρ (milds_mem hm) hg hs h1
          exact ⟨by simp [c], ro, so⟩
    | record labs es =>
      rw [sev] at h
      rw [mild] at hm
      cases hg with
      | record hg ho =>
        rw [chk]
        rcases thenAll_some h with ⟨vs, st1, h1, h2⟩ | ⟨x, h1, rfl⟩
        · cases h2
          obtain ⟨c, ro, so⟩ := ih.list hρ (milds_mem hm) hg hs h1
          exact ⟨by simp [c], .block fun v hv => ro v (byLabel_mem hv), so⟩
        · obtain ⟨c, ro, so⟩ := ih.list hρ (milds_mem hm) hg hs h1
          exact ⟨by simp [c], ro, so⟩
    | par e =>
      rw [sev] at h
      rw [mild] at hm
      rw [chk]
      cases hg with
      | par hg => exact ih _ _ _ _ _ h hm hg hρ hs
    | lett x e b =>
      rw [sev] at h
      simp only [mild, Bool.and_eq_true] at hm
      rw [chk]
      cases hg with
      | lett g1 g2 =>
        rcases thenDo_some h with ⟨v, st1, h1, h2⟩ | ⟨y, h1, rfl⟩
        · obtain ⟨c, ro, so⟩ := ih _ _ _ _ _ h1 hm.1 g1 hρ hs
          obtain ⟨c2, ro2, so2⟩ := ih _ _ _ _ _ h2 hm.2 g2.dm (hρ.bind ro) so
          exact ⟨by simp [c, c2], ro2, so2⟩
        · obtain ⟨c, ro, so⟩ := ih _ _ _ _ _ h1 hm.1 g1 hρ hs
          exact ⟨by simp [c], ro, so⟩
    | andalso a b =>
      rw [sev] at h
      simp only [mild, Bool.and_eq_true] at hm
      rw [chk]
      cases hg with
      | andalso g1 g2 =>
        rcases thenDo_some h with ⟨v, st1, h1, h2⟩ | ⟨y, h1, rfl⟩
        · obtain ⟨c, ro, so⟩ := ih _ _ _ _ _ h1 hm.1 g1 hρ hs
          split_ifs at h2 with hc
          · obtain ⟨c2, ro2, so2⟩ := ih _ _ _ _ _ h2 hm.2 g2 hρ so
            exact ⟨by simp [c, c2, hc], ro2, so2⟩
          · cases h2
            exact ⟨by simp [c, hc], ro, so⟩
        · obtain ⟨c, ro, so⟩ := ih _ _ _ _ _ h1 hm.1 g1 hρ hs
          exact ⟨by simp [c], ro, so⟩
    | orelse a b =>
      rw [sev] at h
      simp only [mild, Bool.and_eq_true] at hm
      rw [chk]
      cases hg with
      | orelse g1 g2 =>
        rcases thenDo_some h with ⟨v, st1, h1, h2⟩ | ⟨y, h1, rfl⟩
        · obtain ⟨c, ro, so⟩ := ih _ _ _ _ _ h1 hm.1 g1 hρ hs
          split_ifs at h2 with hc
          · cases h2
            exact ⟨by simp [c, hc], ro, so⟩
          · obtain ⟨c2, ro2, so2⟩ := ih _ _ _ _ _ h2 hm.2 g2 hρ so
            exact ⟨by simp [c, c2, hc], ro2, so2⟩
        · obtain ⟨c, ro, so⟩ := ih _ _ _ _ _ h1 hm.1 g1 hρ hs
          exact ⟨by simp [c], ro, so⟩
    | cond c a b =>
      rw [sev] at h
      simp only [mild, Bool.and_eq_true] at hm
      rw [chk]
      cases hg with
      | cond g1 g2 g3 =>
        rcases thenDo_some h with ⟨v, st1, h1, h2⟩ | ⟨y, h1, rfl⟩
        · obtain ⟨c, ro, so⟩ := ih _ _ _ _ _ h1 hm.1.1 g1 hρ hs
          split_ifs at h2 with hc
          · obtain ⟨c2, ro2, so2⟩ := ih _ _ _ _ _ h2 hm.1.2 g2 hρ so
            exact ⟨by simp [c, c2, hc], ro2, so2⟩
          · obtain ⟨c2, ro2, so2⟩ := ih _ _ _ _ _ h2 hm.2 g3 hρ so
            exact ⟨by simp [c, c2, hc], ro2, so2⟩
        · obtain ⟨c, ro, so⟩ := ih _ _ _ _ _ h1 hm.1.1 g1 hρ hs
          exact ⟨by simp [c], ro, so⟩
    | seq a b =>
      rw [sev] at h
      simp only [mild, Bool.and_eq_true] at hm
      rw [chk]
      cases hg with
      | seq g1 g2 =>
        rcases thenDo_some h with ⟨v, st1, h1, h2⟩ | ⟨y, h1, rfl⟩
        · obtain ⟨c, ro, so⟩ := ih _ _ _ _ _ h1 hm.1 g1 hρ hs
          obtain ⟨c2, ro2, so2⟩ := ih _ _ _ _ _ h2 hm.2 g2 hρ so
          exact ⟨by simp [c, c2], ro2, so2⟩
        · obtain ⟨c, ro, so⟩ := ih _ _ _ _ _ h1 hm.1 g1 hρ hs
          exact ⟨by simp [c], ro, so⟩
    | whil c a =>
      have hg' := hg
      have hm' := hm
      rw [sev] at h
      simp only [mild, Bool.and_eq_true] at hm
      rw [chk]
      cases hg with
      | whil g1 g2 =>
        rcases thenDo_some h with ⟨v, st1, h1, h2⟩ | ⟨y, h1, rfl⟩
        · obtain ⟨c, ro, so⟩ := ih _ _ _ _ _ h1 hm.1 g1 hρ hs
          split_ifs at h2 with hc
          · rcases thenDo_some h2 with ⟨v2, st2, h3, h4⟩ | ⟨y, h3, rfl⟩
            · obtain ⟨c2, ro2, so2⟩ := ih _ _ _ _ _ h3 hm.2 g2 hρ so
              obtain ⟨c3, ro3, so3⟩ := ih _ _ _ _ _ h4 hm' hg' hρ so2
              exact ⟨by simp [c, c2, c3, hc], ro3, so3⟩
            · obtain ⟨c2, ro2, so2⟩ := ih _ _ _ _ _ h3 hm.2 g2 hρ so
              exact ⟨by simp [c, c2, hc], ro2, so2⟩
          · cases h2
            exact ⟨by simp [c, hc], .constBlock, so⟩
        · obtain ⟨c, ro, so⟩ := ih _ _ _ _ _ h1 hm.1 g1 hρ hs
          exact ⟨by simp [c], ro, so⟩
    | raise e =>
      rw [sev] at h
      rw [mild] at hm
      rw [chk]
      cases hg with
      | raise g1 =>
        rcases thenDo_some h with ⟨v, st1, h1, h2⟩ | ⟨y, h1, rfl⟩
        · cases h2
          obtain ⟨c, ro, so⟩ := ih _ _ _ _ _ h1 hm g1 hρ hs
          exact ⟨by simp [c], ro, so⟩
        · obtain ⟨c, ro, so⟩ := ih _ _ _ _ _ h1 hm g1 hρ hs
          exact ⟨by simp [c], ro, so⟩
    | handle e x b =>
      rw [sev] at h
      simp only [mild, Bool.and_eq_true] at hm
      rw [chk]
      cases hg with
      | handle g1 g2 =>
        split at h
        · rename_i v st1 h1
          obtain ⟨c, ro, so⟩ := ih _ _ _ _ _ h1 hm.1 g1 hρ hs
          obtain ⟨c2, ro2, so2⟩ := ih _ _ _ _ _ h hm.2 g2.dm (hρ.bind ro) so
          exact ⟨by simp [c, c2], ro2, so2⟩
        · rename_i hne
          obtain ⟨c, ro, so⟩ := ih _ _ _ _ _ h hm.1 g1 hρ hs
          cases r with
          | val v => exact ⟨by simp [c], ro, so⟩
          | exn v => exact absurd h (hne _ _)

end Mosml.Front
