import Verif.Typing.Solve

/-!
# Elaboration yields typings
-/

namespace Mosml.Typing

theorem inst_not {ps : List Nat} {m v : Nat} (h : v ∉ ps) : inst ps m v = .var v := by
  have : ps.idxOf? v = none := List.idxOf?_eq_none_iff.2 h
  simp [inst, this]

theorem inst_mem {ps : List Nat} {m v : Nat} (h : v ∈ ps) :
    ∃ i, i < ps.length ∧ inst ps m v = .var (m + i) := by
  cases hx : ps.idxOf? v with
  | none => exact absurd h (List.idxOf?_eq_none_iff.1 hx)
  | some i =>
    refine ⟨i, ?_, by simp [inst, hx]⟩
    have := List.findIdx?_eq_some_iff_getElem.1 hx
    exact this.1

theorem inst_srt (ps : List Nat) (m v : Nat) : Srt (inst ps m v) := by
  by_cases h : v ∈ ps
  · obtain ⟨i, -, e⟩ := inst_mem (m := m) h
    rw [e]; trivial
  · rw [inst_not h]; trivial

/-- The types of a scheme. -/
def semSch (g : Gam) (sc : Scheme) : GTy → Prop :=
  fun t => ∃ g0 : Gam, (∀ v, v ∉ sc.ps → g0 v = g v) ∧ t = (sem g0 sc.body).1

def semEnv (g : Gam) (E : Env) : Ctx := E.map fun p => (p.1, semSch g p.2)

def semPE (g : Gam) (PE : List (Nat × Ty)) : List (Nat × GTy) := PE.map fun p => (p.1, (sem g p.2).1)

theorem semSch_self (g : Gam) (sc : Scheme) : semSch g sc (sem g sc.body).1 :=
  ⟨g, fun _ _ => rfl, rfl⟩

theorem semSch_mono (g : Gam) (t : Ty) : semSch g ⟨[], t⟩ = fun u => u = (sem g t).1 := by
  funext u
  apply propext
  constructor
  · rintro ⟨g0, h, rfl⟩
    have : g0 = g := funext fun v => h v (by simp)
    rw [this]
  · rintro rfl
    exact semSch_self g ⟨[], t⟩

theorem semSch_sub {g g' : Gam} {sc : Scheme} (h : ∀ v ∈ sc.body.fv, v ∉ sc.ps → g v = g' v)
    (t : GTy) (ht : semSch g sc t) : semSch g' sc t := by
  obtain ⟨g0, h0, rfl⟩ := ht
  refine ⟨fun w => if w ∈ sc.ps then g0 w else g' w, fun v hv => by simp [hv], ?_⟩
  rw [sem_congr sc.body]
  intro v hv
  by_cases e : v ∈ sc.ps
  · simp [e]
  · simp [e, h0 v e, h v hv e]

theorem semSch_congr {g g' : Gam} {sc : Scheme} (h : ∀ v ∈ sc.body.fv, v ∉ sc.ps → g v = g' v) :
    semSch g sc = semSch g' sc := by
  funext t
  exact propext ⟨semSch_sub h t, semSch_sub (fun v hv hp => (h v hv hp).symm) t⟩

theorem look_map {α β : Type} (f : α → β) (x : Nat) : ∀ l : List (Nat × α),
    look x (l.map fun p => (p.1, f p.2)) = (look x l).map f
  | [] => rfl
  | (y, a) :: r => by
    simp only [List.map_cons, look]
    split
    · rfl
    · exact look_map f x r

theorem semEnv_mono (g : Gam) (PE : List (Nat × Ty)) (E : Env) :
    semEnv g (mono PE ++ E) = monoG (semPE g PE) ++ semEnv g E := by
  simp [semEnv, mono, monoG, semPE, semSch_mono]

/-- The variables of the types in an environment, other than parameters, have at most the
level `m`. -/
def EnvLE (S : St) (m : Nat) (E : Env) : Prop :=
  ∀ p ∈ E, ∀ v ∈ p.2.body.fv, v ∉ p.2.ps → LE S m (.var v)

theorem LE_iff {S : St} {m : Nat} {t : Ty} : LE S m t ↔ ∀ v ∈ t.fv, LE S m (.var v) := by
  constructor
  · intro h v hv w hw
    simp only [Ty.fv, List.mem_singleton] at hw
    exact hw ▸ h v hv
  · intro h v hv
    exact h v hv v (by simp [Ty.fv])

theorem EnvLE.ext {S S' : St} {m : Nat} {E : Env} (h : EnvLE S m E) (x : Ext S S') :
    EnvLE S' m E := fun p hp v hv hn => x.le _ _ (h p hp v hv hn)

theorem EnvLE.mono {S : St} {m n : Nat} {E : Env} (h : EnvLE S m E) (hn : m ≤ n) :
    EnvLE S n E := fun p hp v hv hq => (h p hp v hv hq).mono hn

theorem EnvLE.cons {S : St} {m : Nat} {E : Env} (h : EnvLE S m E) {x : Nat} {sc : Scheme}
    (hs : ∀ v ∈ sc.body.fv, v ∉ sc.ps → LE S m (.var v)) : EnvLE S m ((x, sc) :: E) := by
  intro p hp
  simp only [List.mem_cons] at hp
  rcases hp with rfl | hp
  · exact hs
  · exact h p hp

theorem EnvLE.app_mono {S : St} {m : Nat} {E : Env} (h : EnvLE S m E) {PE : List (Nat × Ty)}
    (hs : ∀ p ∈ PE, LE S m p.2) : EnvLE S m (Typing.mono PE ++ E) := by
  intro p hp
  simp only [List.mem_append, Typing.mono, List.mem_map] at hp
  rcases hp with ⟨q, hq, rfl⟩ | hp
  · intro v hv _
    exact LE_iff.1 (hs q hq) v hv
  · exact h p hp

theorem mem_look {α : Type} {x : Nat} {a : α} : ∀ {l : List (Nat × α)}, look x l = some a →
    (x, a) ∈ l
  | [], h => by simp [look] at h
  | (y, b) :: r, h => by
    simp only [look] at h
    split at h
    · next e =>
      obtain rfl := Option.some.inj h
      simp [e]
    · exact List.mem_cons_of_mem _ (mem_look h)

/-! ## Specialization and generalization -/

theorem specialize_ok (S : St) (n : Nat) (sc : Scheme)
    (h : ∀ v ∈ sc.body.fv, v ∉ sc.ps → LE S n (.var v)) :
    Ext S (specialize S n sc).1 ∧ (WF S → WF (specialize S n sc).1) ∧
      LE (specialize S n sc).1 n (specialize S n sc).2 ∧
      ∀ g, semSch g sc (sem g (specialize S n sc).2).1 := by
  have hx := freshN_ext S n sc.ps.length
  refine ⟨hx, fun hS => hS.of_img (freshN_spec _ S n).1, ?_, ?_⟩
  · rw [LE_iff]
    intro w hw
    simp only [specialize] at hw ⊢
    rw [mem_fv_subst] at hw
    obtain ⟨v, hv, hw⟩ := hw
    by_cases e : v ∈ sc.ps
    · obtain ⟨i, hi, e⟩ := inst_mem (m := S.tv.length) e
      rw [e] at hw
      simp only [Ty.fv, List.mem_singleton] at hw
      subst hw
      exact freshN_LE S n _ (by omega) (by omega)
    · rw [inst_not e] at hw
      simp only [Ty.fv, List.mem_singleton] at hw
      subst hw
      exact hx.le _ _ (h w hv e)
  · intro g
    refine ⟨fun w => sem g (inst sc.ps S.tv.length w), fun v hv => ?_, ?_⟩
    · show sem g (inst sc.ps S.tv.length v) = g v
      rw [inst_not hv]; rfl
    · simp only [specialize, sem_subst]

theorem mem_above {S : St} {n v : Nat} {vs : List Nat} (h : v ∈ S.above n vs) :
    v ∈ vs ∧ n < S.lvl v := by
  simp only [St.above, List.mem_dedup, List.mem_filter, Bool.and_eq_true,
    decide_eq_true_eq] at h
  exact ⟨h.1, h.2.1⟩

/-- A solution with other values for variables that stand for themselves. -/
theorem sol_of (S : St) (hS : WF S) (h : Gam) : Sol S fun w => sem h (S.img w) := by
  intro w
  show sem h (S.img w) = sem _ (S.img w)
  refine sem_congr _ fun x hx => ?_
  rw [hS.idem w x hx]
  rfl

theorem generalize_ok {S : St} (hS : WF S) {n : Nat} {ex : Bool} {t : Ty} {E : Env}
    (hE : EnvLE S n E) (ht : LE S (n + 1) t) {S' : St} {sc : Scheme}
    (h : generalize S n ex t = (S', sc)) :
    WF S' ∧ Ext S S' ∧ (∀ v ∈ sc.body.fv, v ∉ sc.ps → LE S' (n + 1) (.var v)) ∧
      ∀ g, Sol S' g →
        (∀ u, semSch g sc u → ∃ g1, Sol S g1 ∧ semEnv g1 E = semEnv g E ∧ u = (sem g1 t).1) ∧
        (ex = true → ∀ u, semSch g sc u → u = (sem g t).1) := by
  have lu := ht.app hS
  cases ex with
  | true =>
    simp only [generalize, if_true, Prod.mk.injEq] at h
    obtain ⟨rfl, rfl⟩ := h
    have hx := prune_ext S n (S.above n (S.app t).fv)
    refine ⟨hS.of_img (img_prune _ _ _), hx, ?_, ?_⟩
    · intro v hv _
      exact hx.le _ _ (LE_iff.1 lu v hv)
    · intro g hg
      have hg0 := hx.sol g hg
      have key : ∀ u, semSch g ⟨[], S.app t⟩ u → u = (sem g t).1 := by
        intro u hu
        rw [semSch_mono, sem_app hg0] at hu
        exact hu
      exact ⟨fun u hu => ⟨g, hg0, rfl, key u hu⟩, fun _ => key⟩
  | false =>
    simp only [generalize, Bool.false_eq_true, if_false, Prod.mk.injEq] at h
    obtain ⟨rfl, rfl⟩ := h
    generalize htv : S.above n (S.app t).fv = tvs
    have hx := freshN_ext S (n + 1) tvs.length
    have hps : ∀ w, w ∈ (List.range tvs.length).map (S.tv.length + ·) ↔
        S.tv.length ≤ w ∧ w < S.tv.length + tvs.length := by
      intro w
      simp only [List.mem_map, List.mem_range]
      constructor
      · rintro ⟨i, hi, rfl⟩; omega
      · intro h; exact ⟨w - S.tv.length, by omega, by omega⟩
    refine ⟨hS.of_img (freshN_spec _ S _).1, hx, ?_, ?_⟩
    · intro w hw hn
      simp only at hw hn
      rw [hps] at hn
      rw [mem_fv_subst] at hw
      obtain ⟨v, hv, hw⟩ := hw
      by_cases e : v ∈ tvs
      · obtain ⟨i, hi, e⟩ := inst_mem (m := S.tv.length) e
        rw [e] at hw
        simp only [Ty.fv, List.mem_singleton] at hw
        omega
      · rw [inst_not e] at hw
        simp only [Ty.fv, List.mem_singleton] at hw
        subst hw
        exact hx.le _ _ (LE_iff.1 lu w hv)
    · intro g hg
      have hg0 := hx.sol g hg
      refine ⟨?_, by simp⟩
      rintro u ⟨g0, hag, rfl⟩
      simp only at hag
      rw [sem_subst]
      generalize hh : (fun v => sem g0 (inst tvs S.tv.length v)) = h
      have hlow : ∀ w, w ∉ tvs → w < S.tv.length → h w = g w := by
        intro w hw hl
        rw [← hh]
        simp only [inst_not hw, sem]
        exact hag w (by rw [hps]; omega)
      refine ⟨fun w => sem h (S.img w), sol_of S hS h, ?_, ?_⟩
      · simp only [semEnv]
        refine List.map_congr_left fun p hp => ?_
        rw [semSch_congr]
        intro v hv hn
        rw [hg0 v]
        refine sem_congr _ fun w hw => ?_
        have h1 := (hE p hp v hv hn v (by simp [Ty.fv])).2 w hw
        refine hlow w (fun hm => ?_) h1.1
        rw [← htv] at hm
        have := (mem_above hm).2
        omega
      · rw [St.app, sem_subst]

/-! ## Patterns -/

/-- The labels have the types of the chain. -/
def Fits (f : Row) : List Nat → GTy → Prop
  | [], .nil => True
  | l :: ls, .cons t ts => f l = some t ∧ Fits f ls ts
  | _, _ => False

theorem mkRow_fv {r : Ty} {w : Nat} : ∀ {ls : List Nat} {m : Nat}, w ∈ (mkRow r ls m).fv →
    w ∈ r.fv ∨ (m ≤ w ∧ w < m + ls.length)
  | [], _, h => .inl h
  | l :: ls, m, h => by
    simp only [mkRow, mem_fv_ins] at h
    rcases h with h | h
    · simp only [Ty.fv, List.mem_singleton] at h
      right
      simp only [List.length_cons]
      omega
    · rcases mkRow_fv h with h | h
      · exact .inl h
      · right
        simp only [List.length_cons]
        omega

theorem vars_fv {w : Nat} : ∀ {k m : Nat}, w ∈ (vars m k).fv → m ≤ w ∧ w < m + k
  | 0, _, h => by simp [vars, Ty.fv] at h
  | k + 1, m, h => by
    simp only [vars, Ty.fv, List.cons_append, List.nil_append, List.mem_cons] at h
    rcases h with rfl | h
    · omega
    · have := vars_fv h
      omega

theorem fits_mkRow (g : Gam) (r : Ty) {f : Row} : ∀ (ls : List Nat) (m : Nat), ls.Nodup →
    (∀ l ∈ ls, f l = (sem g (mkRow r ls m)).2 l) → Fits f ls (sem g (vars m ls.length)).1
  | [], _, _, _ => trivial
  | l :: ls, m, hn, hf => by
    have hn' := List.nodup_cons.1 hn
    simp only [vars, List.length_cons, sem]
    refine ⟨?_, fits_mkRow g r ls (m + 1) hn'.2 ?_⟩
    · rw [hf l (by simp)]
      simp [mkRow, sem_ins, sem]
    · intro l' hl'
      rw [hf l' (by simp [hl'])]
      have : l' ≠ l := fun e => hn'.1 (e ▸ hl')
      simp [mkRow, sem_ins, sem, this]

theorem sem_conArg (g : Gam) (a : Ty) (k : Con) :
    (conArg a k).map (fun t => (sem g t).1) = conArgG (sem g a).1 k := by
  cases k <;> simp [conArg, conArgG, tPair, tList, sem, gPair, gList, noRow]

theorem sem_conRes (g : Gam) (a : Ty) (k : Con) : (sem g (conRes a k)).1 = conResG (sem g a).1 k := by
  cases k <;> simp [conRes, conResG, tOpt, tList, sem, gOpt, gList]

theorem sem_conTy (g : Gam) (a : Ty) (k : Con) : (sem g (conTy a k)).1 = conG (sem g a).1 k := by
  have h1 := sem_conArg g a k
  have h2 := sem_conRes g a k
  simp only [conTy, conG]
  rw [← h1]
  cases conArg a k with
  | none => simpa using h2
  | some b => simp [sem, h2]

theorem sem_primTy (g : Gam) (a : Ty) (p : Prim) :
    (sem g (primTy a p)).1 = primG (sem g a).1 p := by
  cases p <;> simp [primTy, primG, tPair, tRef, tUnit, tInt, sem, gPair, gRef, gUnit, gInt, noRow]
  rfl

theorem fv_conTy {a w : Nat} {k : Con} (h : w ∈ (conTy (.var a) k).fv) : w = a := by
  cases k <;> simp [conTy, conArg, conRes, tOpt, tList, tPair, Ty.fv] at h <;> tauto

theorem fv_primTy {a w : Nat} {p : Prim} (h : w ∈ (primTy (.var a) p).fv) : w = a := by
  cases p <;> simp [primTy, tRef, tPair, tUnit, tInt, Ty.fv] at h <;> tauto

theorem LE_closed {S : St} {m : Nat} {t : Ty} (h : t.fv = []) : LE S m t := by
  intro v hv; rw [h] at hv; simp at hv

theorem mkRow_none (g : Gam) {l : Nat} : ∀ (ls : List Nat) (m : Nat), l ∉ ls →
    (sem g (mkRow .nil ls m)).2 l = none
  | [], _, _ => rfl
  | x :: ls, m, h => by
    simp only [List.mem_cons, not_or] at h
    simp only [mkRow, sem_ins, sem]
    rw [if_neg h.1]
    exact mkRow_none g ls (m + 1) h.2

/-- Types other than chains. -/
def Ty.plain : Ty → Bool
  | .nil => false
  | .cons _ _ => false
  | _ => true

/-- Chains of such types. -/
def Ty.plains : Ty → Bool
  | .nil => true
  | .cons t ts => t.plain && ts.plains
  | _ => false

theorem vars_plains : ∀ k m, (vars m k).plains = true
  | 0, _ => rfl
  | k + 1, m => by simp [vars, Ty.plains, Ty.plain, vars_plains k]

/-- What the elaboration of a pattern achieves. -/
def PatDone (g : Gam) (p : Pat) (t : Ty) (PE PE' : List (Nat × Ty)) : Prop :=
  if p.isFields then ∀ f, Fits f p.labels (sem g t).1 → PTyp p (.rcd f) (semPE g PE) (semPE g PE')
  else PTyp p (sem g t).1 (semPE g PE) (semPE g PE')

theorem look_semPE {g : Gam} {x : Nat} {PE : List (Nat × Ty)} (h : ¬ (look x PE).isSome = true) :
    look x (semPE g PE) = none := by
  rw [semPE, look_map (fun t => (sem g t).1)]
  simpa using h

/-- Fields are elaborated at chains, other patterns at other types. -/
def Apt (p : Pat) (t : Ty) : Prop := if p.isFields then t.plains = true else t.plain = true

theorem elabPat_apt {k n : Nat} {p : Pat} {t : Ty} {S : St} {PE : List (Nat × Ty)}
    {r : St × List (Nat × Ty)} (h : elabPat k n p t S PE = .ok r) (ht : t.plain = true) :
    Apt p t := by
  cases p with
  | fnil => cases t <;> simp_all [elabPat, Ty.plain]
  | fcons l p r => cases t <;> simp_all [elabPat, Ty.plain]
  | _ => simpa [Apt, Pat.isFields] using ht

theorem PatDone.plain {g : Gam} {p : Pat} {t : Ty} {PE PE' : List (Nat × Ty)}
    (h : PatDone g p t PE PE') (hp : Apt p t) (ht : t.plain = true) :
    PTyp p (sem g t).1 (semPE g PE) (semPE g PE') := by
  unfold PatDone at h
  unfold Apt at hp
  split at h
  · next e =>
    rw [if_pos e] at hp
    cases t <;> simp_all [Ty.plain, Ty.plains]
  · exact h

theorem elabPat_ok (k n : Nat) : ∀ (p : Pat) (t : Ty) (S : St) (PE : List (Nat × Ty)) (S' : St)
    (PE' : List (Nat × Ty)), elabPat k n p t S PE = .ok (S', PE') → Apt p t → WF S → LE S n t →
      (∀ q ∈ PE, LE S n q.2) →
      WF S' ∧ Ext S S' ∧ (∀ q ∈ PE', LE S' n q.2) ∧ ∀ g, Sol S' g → PatDone g p t PE PE' := by
  intro p
  induction p with
  | var x =>
    intro t S PE S' PE' h hA hS ht hP
    simp only [elabPat] at h
    split at h
    · simp at h
    · next hx =>
      simp only [Except.ok.injEq, Prod.mk.injEq] at h
      obtain ⟨rfl, rfl⟩ := h
      refine ⟨hS, .refl S, ?_, fun g _ => .var _ _ _ (look_semPE hx)⟩
      intro q hq
      simp only [List.mem_cons] at hq
      rcases hq with rfl | hq
      · exact ht
      · exact hP q hq
  | wild =>
    intro t S PE S' PE' h hA hS ht hP
    simp only [elabPat, Except.ok.injEq, Prod.mk.injEq] at h
    obtain ⟨rfl, rfl⟩ := h
    exact ⟨hS, .refl S, hP, fun g _ => .wild _ _⟩
  | int z =>
    intro t S PE S' PE' h hA hS ht hP
    simp only [elabPat] at h
    obtain ⟨S1, h1, h⟩ := bind_ok h
    simp only [Except.ok.injEq, Prod.mk.injEq] at h
    obtain ⟨rfl, rfl⟩ := h
    obtain ⟨w1, x1, s1⟩ := unify_ok n k S S1 _ _ h1 hS (LE_closed rfl) ht
    refine ⟨w1, x1, fun q hq => x1.le _ _ (hP q hq), fun g hg => ?_⟩
    show PTyp _ _ _ _
    rw [← s1 g hg]
    exact .int _ _
  | bool z =>
    intro t S PE S' PE' h hA hS ht hP
    simp only [elabPat] at h
    obtain ⟨S1, h1, h⟩ := bind_ok h
    simp only [Except.ok.injEq, Prod.mk.injEq] at h
    obtain ⟨rfl, rfl⟩ := h
    obtain ⟨w1, x1, s1⟩ := unify_ok n k S S1 _ _ h1 hS (LE_closed rfl) ht
    refine ⟨w1, x1, fun q hq => x1.le _ _ (hP q hq), fun g hg => ?_⟩
    show PTyp _ _ _ _
    rw [← s1 g hg]
    exact .bool _ _
  | as x p ih =>
    intro t S PE S' PE' h hA hS ht hP
    have hp : t.plain = true := by simpa [Apt, Pat.isFields] using hA
    simp only [elabPat] at h
    split at h
    · simp at h
    · next hx =>
      have hA' := elabPat_apt h hp
      obtain ⟨w, xx, l, s⟩ := ih t S _ S' PE' h hA' hS ht (by
        intro q hq
        simp only [List.mem_cons] at hq
        rcases hq with rfl | hq
        · exact ht
        · exact hP q hq)
      refine ⟨w, xx, l, fun g hg => ?_⟩
      show PTyp _ _ _ _
      exact .as _ _ _ _ _ (look_semPE hx) ((s g hg).plain hA' hp)
  | con0 c =>
    intro t S PE S' PE' h hA hS ht hP
    simp only [elabPat] at h
    split at h
    · simp at h
    · next hc =>
      obtain ⟨S1, h1, h⟩ := bind_ok h
      simp only [Except.ok.injEq, Prod.mk.injEq] at h
      obtain ⟨rfl, rfl⟩ := h
      have x0 := fresh_ext S n false
      obtain ⟨w1, x1, s1⟩ := unify_ok n k _ S1 _ _ h1 (hS.of_img (img_fresh _ _ _))
        ((fresh_LE S n false).of_fv (fun v hv => by simp [Ty.fv, fv_conTy hv])) (x0.le _ _ ht)
      have x01 := x0.trans x1
      refine ⟨w1, x01, fun q hq => x01.le _ _ (hP q hq), fun g hg => ?_⟩
      show PTyp _ _ _ _
      rw [← s1 g hg]
      have e : conArg (.var S.tv.length) c = none := by simpa using hc
      have e' := sem_conArg g (.var S.tv.length) c
      rw [e] at e'
      have e2 : conTy (.var S.tv.length) c = conRes (.var S.tv.length) c := by simp [conTy, e]
      rw [e2, sem_conRes]
      exact .con0 _ _ _ e'.symm
  | con c p ih =>
    intro t S PE S' PE' h hA hS ht hP
    simp only [elabPat] at h
    obtain ⟨S1, h1, h'⟩ := bind_ok h
    clear h
    obtain ⟨S2, h2, h⟩ := bind_ok h'
    clear h'
    have a0 := fresh_ext S n false
    have a1 := fresh_ext (S.fresh n false) n false
    have a2 := fresh_ext ((S.fresh n false).fresh n false) n false
    have l0 := fresh_LE S n false
    have l1 := fresh_LE (S.fresh n false) n false
    have l2 := fresh_LE ((S.fresh n false).fresh n false) n false
    rw [len_fresh] at l1
    rw [len_fresh, len_fresh] at l2
    have b2 := a0.trans (a1.trans a2)
    have l0' := a2.le _ _ (a1.le _ _ l0)
    have l1' := a2.le _ _ l1
    generalize hB : ((S.fresh n false).fresh n false).fresh n false = B at *
    have wB : WF B := hS.of_img (by rw [← hB, img_fresh, img_fresh, img_fresh])
    obtain ⟨w1, x1, s1⟩ := unify_ok n k B S1 _ _ h1 wB
      (l0'.of_fv (fun v hv => by simp [Ty.fv, fv_conTy hv]))
      (LE_iff.2 fun v hv => by
        simp only [Ty.fv, List.cons_append, List.nil_append, List.mem_cons,
          List.not_mem_nil, or_false] at hv
        rcases hv with rfl | rfl
        · exact l1'
        · exact l2)
    obtain ⟨w2, x2, s2⟩ := unify_ok n k S1 S2 _ _ h2 w1 (x1.le _ _ l2)
      (x1.le _ _ (b2.le _ _ ht))
    have x12 := x1.trans x2
    have hA' := elabPat_apt h rfl
    obtain ⟨w3, x3, l3, s3⟩ := ih _ S2 PE S' PE' h hA' w2 (x12.le _ _ l1')
      (fun q hq => x12.le _ _ (b2.le _ _ (hP q hq)))
    refine ⟨w3, b2.trans (x12.trans x3), l3, fun g hg => ?_⟩
    show PTyp _ _ _ _
    have hg2 := x3.sol g hg
    have e1 := s1 g (x2.sol g hg2)
    rw [← s2 g hg2]
    have e2 := sem_conTy g (.var S.tv.length) c
    rw [e1] at e2
    simp only [conG] at e2
    cases hc : conArgG (sem g (.var S.tv.length)).1 c with
    | none =>
      rw [hc] at e2
      cases c <;> simp [conResG, sem, gOpt, gList] at e2
    | some b =>
      rw [hc] at e2
      simp only [sem, GTy.arrow.injEq] at e2
      have := (s3 g hg).plain hA' rfl
      simp only [sem] at this ⊢
      rw [e2.2]
      exact .con _ _ _ _ _ _ hc (e2.1 ▸ this)
  | rcd fs dots ih =>
    intro t S PE S' PE' h hA hS ht hP
    simp only [elabPat] at h
    split at h
    · simp at h
    next hnd =>
    split at h
    · simp at h
    next hf =>
    have hnd : fs.labels.Nodup := by simpa using hnd
    have hf : fs.isFields = true := by simpa using hf
    have hA' : Apt fs (vars S.tv.length fs.labels.length) := by
      rw [Apt, if_pos hf]; exact vars_plains _ _
    have x0 := freshN_ext S n fs.labels.length
    have w0 : WF (S.freshN n fs.labels.length) := hS.of_img (freshN_spec _ S _).1
    have lv : LE (S.freshN n fs.labels.length) n (vars S.tv.length fs.labels.length) :=
      LE_iff.2 fun v hv => by
        have := vars_fv hv
        exact freshN_LE S n _ (by omega) (by omega)
    have fin : ∀ (r : Ty) (B S1 : St), unify k B (.rcd (mkRow r fs.labels S.tv.length)) t = .ok S1 →
        elabPat k n fs (vars S.tv.length fs.labels.length) S1 PE = .ok (S', PE') →
        WF B → Ext (S.freshN n fs.labels.length) B → LE B n r →
        (dots = false → r = .nil) →
        WF S' ∧ Ext S S' ∧ (∀ q ∈ PE', LE S' n q.2) ∧
          ∀ g, Sol S' g → PatDone g (.rcd fs dots) t PE PE' := by
      intro r B S1 h1 h2 wB xB lr hr
      have xS := x0.trans xB
      obtain ⟨w1, x1, s1⟩ := unify_ok n k B S1 _ _ h1 wB
        (LE_iff.2 fun v hv => by
          rcases mkRow_fv hv with hv | hv
          · exact LE_iff.1 lr v hv
          · exact xB.le _ _ (freshN_LE S n _ (by omega) (by omega))) (xS.le _ _ ht)
      obtain ⟨w2, x2, l2, s2⟩ := ih _ S1 PE S' PE' h2 hA' w1 (x1.le _ _ (xB.le _ _ lv))
        (fun q hq => x1.le _ _ (xS.le _ _ (hP q hq)))
      refine ⟨w2, xS.trans (x1.trans x2), l2, fun g hg => ?_⟩
      show PTyp _ _ _ _
      have e := s1 g (x2.sol g hg)
      have d := s2 g hg
      rw [PatDone, if_pos hf] at d
      rw [← e]
      simp only [sem]
      refine .rcd _ _ _ _ _ hf hnd ?_ (d _ (fits_mkRow g r _ _ hnd fun _ _ => rfl))
      intro hd l hl
      rw [hr hd]
      exact mkRow_none g _ _ hl
    split at h
    · next hd =>
      obtain ⟨S1, h1, h2⟩ := bind_ok h
      refine fin _ _ S1 h1 h2 ?_ ?_ ?_ (by simp [hd])
      · exact w0.of_img (img_fresh _ n true)
      · have x := fresh_ext (S.freshN n fs.labels.length) n true
        exact ⟨x.len, x.sol, x.le⟩
      · exact fresh_LE (S.freshN n fs.labels.length) n true
    · obtain ⟨S1, h1, h2⟩ := bind_ok h
      exact fin _ _ S1 h1 h2 w0 (.refl _) (LE_closed rfl) (fun _ => rfl)
  | fnil =>
    intro t S PE S' PE' h hA hS ht hP
    cases t with
    | nil =>
      simp only [elabPat, Except.ok.injEq, Prod.mk.injEq] at h
      obtain ⟨rfl, rfl⟩ := h
      refine ⟨hS, .refl S, hP, fun g _ => ?_⟩
      intro f _
      exact .fnil _ _
    | _ => simp [elabPat] at h
  | fcons l p r ihp ihr =>
    intro t S PE S' PE' h hA hS ht hP
    cases t with
    | cons t ts =>
      have hr : r.isFields = true := by
        by_contra hr
        simp [Apt, Pat.isFields, hr, Ty.plain] at hA
      have hpl : t.plain = true ∧ ts.plains = true := by
        simpa [Apt, Pat.isFields, hr, Ty.plains] using hA
      simp only [elabPat] at h
      obtain ⟨⟨S1, PE1⟩, h1, h2⟩ := bind_ok h
      have hA' := elabPat_apt h1 hpl.1
      obtain ⟨w1, x1, l1, s1⟩ := ihp t S PE S1 PE1 h1 hA' hS
        (ht.of_fv fun v hv => by simp [Ty.fv, hv]) hP
      obtain ⟨w2, x2, l2, s2⟩ := ihr ts S1 PE1 S' PE' h2 (by rw [Apt, if_pos hr]; exact hpl.2) w1
        (x1.le _ _ (ht.of_fv fun v hv => by simp [Ty.fv, hv])) l1
      refine ⟨w2, x1.trans x2, l2, fun g hg => ?_⟩
      rw [PatDone, if_pos (by simpa [Pat.isFields] using hr)]
      intro f hf
      simp only [sem, Pat.labels, Fits] at hf
      have d := s2 g hg
      rw [PatDone, if_pos hr] at d
      exact .fcons _ _ _ _ _ _ _ _ hf.1 ((s1 g (x2.sol g hg)).plain hA' hpl.1) (d f hf.2)
    | _ => simp [elabPat] at h

/-! ## Expressions -/

/-- Types at which expressions are elaborated. -/
def Ty.good : Ty → Bool
  | .arrow a b => a.plain && b.good
  | .cons t ts => t.good && ts.good
  | _ => true

theorem vars_good : ∀ k m, (vars m k).good = true
  | 0, _ => rfl
  | k + 1, m => by simp [vars, Ty.good, vars_good k]

theorem zipLook_mkRow (g : Gam) : ∀ (ls : List Nat) (m : Nat),
    (sem g (mkRow .nil ls m)).2 = zipLook ls (sem g (vars m ls.length)).1
  | [], _ => rfl
  | l :: ls, m => by
    funext x
    simp only [mkRow, sem_ins, List.length_cons, vars, sem, zipLook]
    split
    · rfl
    · rw [zipLook_mkRow g ls (m + 1)]

theorem LE_vars {S S' : St} {n c : Nat} {a : Nat} (x : Ext (S.freshN n c) S')
    (h1 : S.tv.length ≤ a) (h2 : a < S.tv.length + c) : LE S' n (.var a) :=
  x.le _ _ (freshN_LE S n _ h1 h2)

theorem LE_arrow {S : St} {n : Nat} {a b : Ty} (ha : LE S n a) (hb : LE S n b) :
    LE S n (.arrow a b) := by
  intro v hv
  simp only [Ty.fv, List.mem_append] at hv
  rcases hv with hv | hv
  · exact ha v hv
  · exact hb v hv

theorem elabExp_ok (k : Nat) : ∀ (e : Exp) (n : Nat) (E : Env) (t : Ty) (S S' : St),
    elabExp k e n E t S = .ok S' → t.good = true → WF S → EnvLE S n E → LE S n t →
      WF S' ∧ Ext S S' ∧ ∀ g, Sol S' g → Typ (semEnv g E) e (sem g t).1 := by
  intro e
  induction e with
  | int z =>
    intro n E t S S' h hg hS hE ht
    obtain ⟨w1, x1, s1⟩ := unify_ok n k S S' _ _ h hS (LE_closed rfl) ht
    refine ⟨w1, x1, fun g hg => ?_⟩
    rw [← s1 g hg]
    exact .int _ _
  | bool z =>
    intro n E t S S' h hg hS hE ht
    obtain ⟨w1, x1, s1⟩ := unify_ok n k S S' _ _ h hS (LE_closed rfl) ht
    refine ⟨w1, x1, fun g hg => ?_⟩
    rw [← s1 g hg]
    exact .bool _ _
  | var x =>
    intro n E t S S' h hg hS hE ht
    simp only [elabExp] at h
    cases hx : look x E with
    | none => simp [hx] at h
    | some sc =>
      simp only [hx] at h
      obtain ⟨x0, w0, l0, m0⟩ := specialize_ok S n sc (hE _ (mem_look hx))
      obtain ⟨w1, x1, s1⟩ := unify_ok n k _ S' _ _ h (w0 hS) l0 (x0.le _ _ ht)
      refine ⟨w1, x0.trans x1, fun g hg => ?_⟩
      rw [← s1 g hg]
      refine .var _ _ (semSch g sc) _ ?_ (m0 g)
      rw [semEnv, look_map (semSch g), hx]
      rfl
  | prim p =>
    intro n E t S S' h hg hS hE ht
    simp only [elabExp] at h
    have x0 := fresh_ext S n false
    obtain ⟨w1, x1, s1⟩ := unify_ok n k _ S' _ _ h (hS.of_img (img_fresh _ _ _))
      ((fresh_LE S n false).of_fv (fun v hv => by simp [Ty.fv, fv_primTy hv])) (x0.le _ _ ht)
    refine ⟨w1, x0.trans x1, fun g hg => ?_⟩
    rw [← s1 g hg, sem_primTy]
    exact .prim _ _ _
  | con p =>
    intro n E t S S' h hg hS hE ht
    simp only [elabExp] at h
    have x0 := fresh_ext S n false
    obtain ⟨w1, x1, s1⟩ := unify_ok n k _ S' _ _ h (hS.of_img (img_fresh _ _ _))
      ((fresh_LE S n false).of_fv (fun v hv => by simp [Ty.fv, fv_conTy hv])) (x0.le _ _ ht)
    refine ⟨w1, x0.trans x1, fun g hg => ?_⟩
    rw [← s1 g hg, sem_conTy]
    exact .con _ _ _
  | fn rs ih =>
    intro n E t S S' h hg hS hE ht
    simp only [elabExp] at h
    split at h
    · simp at h
    next hr =>
    obtain ⟨S1, h1, h2⟩ := bind_ok h
    have x0 := freshN_ext S n 2
    have w0 : WF (S.freshN n 2) := hS.of_img (freshN_spec _ S _).1
    have la : LE (S.freshN n 2) n (.arrow (.var S.tv.length) (.var (S.tv.length + 1))) :=
      LE_arrow (LE_vars (.refl _) (by omega) (by omega)) (LE_vars (.refl _) (by omega) (by omega))
    obtain ⟨w1, x1, s1⟩ := unify_ok n k _ S1 _ _ h1 w0 la (x0.le _ _ ht)
    obtain ⟨w2, x2, s2⟩ := ih n E _ S1 S' h2 rfl w1 ((hE.ext x0).ext x1) (x1.le _ _ la)
    refine ⟨w2, x0.trans (x1.trans x2), fun g hg => ?_⟩
    rw [← s1 g (x2.sol g hg)]
    exact .fn _ _ _ _ (by simpa using hr) (s2 g hg)
  | app f a ihf iha =>
    intro n E t S S' h hg hS hE ht
    simp only [elabExp] at h
    obtain ⟨S1, h1, h⟩ := bind_ok h
    obtain ⟨S2, h2, h⟩ := bind_ok h
    obtain ⟨S3, h3, h4⟩ := bind_ok h
    have x0 := fresh_ext S n false
    have l0 := fresh_LE S n false
    obtain ⟨w1, x1, s1⟩ := ihf n E _ _ S1 h1 rfl (hS.of_img (img_fresh _ _ _)) (hE.ext x0) l0
    have xf := freshN_ext S1 n 2
    have wf : WF (S1.freshN n 2) := w1.of_img (freshN_spec _ S1 _).1
    have la : LE (S1.freshN n 2) n (.var S1.tv.length) :=
      LE_vars (.refl _) (by omega) (by omega)
    have lb : LE (S1.freshN n 2) n (.var (S1.tv.length + 1)) :=
      LE_vars (.refl _) (by omega) (by omega)
    obtain ⟨w2, x2, s2⟩ := unify_ok n k _ S2 _ _ h2 wf (xf.le _ _ (x1.le _ _ l0)) (LE_arrow la lb)
    have x02 := x0.trans (x1.trans (xf.trans x2))
    obtain ⟨w3, x3, s3⟩ := unify_ok n k _ S3 _ _ h3 w2 (x2.le _ _ lb) (x02.le _ _ ht)
    have x03 := x02.trans x3
    obtain ⟨w4, x4, s4⟩ := iha n E _ S3 S' h4 rfl w3 (hE.ext x03) (x3.le _ _ (x2.le _ _ la))
    refine ⟨w4, x03.trans x4, fun g hg => ?_⟩
    have g3 := x4.sol g hg
    have g2 := x3.sol g g3
    have t1 := s1 g (xf.sol g (x2.sol g g2))
    rw [s2 g g2] at t1
    rw [← s3 g g3]
    exact .app _ _ _ _ _ t1 (s4 g hg)
  | rcd fs ih =>
    intro n E t S S' h hg hS hE ht
    simp only [elabExp] at h
    split at h
    · simp at h
    next hnd =>
    obtain ⟨S1, h1, h2⟩ := bind_ok h
    have x0 := freshN_ext S n fs.labels.length
    have w0 : WF (S.freshN n fs.labels.length) := hS.of_img (freshN_spec _ S _).1
    obtain ⟨w1, x1, s1⟩ := unify_ok n k _ S1 _ _ h1 w0
      (LE_iff.2 fun v hv => by
        rcases mkRow_fv hv with hv | hv
        · simp [Ty.fv] at hv
        · exact freshN_LE S n _ (by omega) (by omega)) (x0.le _ _ ht)
    obtain ⟨w2, x2, s2⟩ := ih n E _ S1 S' h2 (vars_good _ _) w1 ((hE.ext x0).ext x1)
      (LE_iff.2 fun v hv => by
        have := vars_fv hv
        exact LE_vars x1 (by omega) (by omega))
    refine ⟨w2, x0.trans (x1.trans x2), fun g hg => ?_⟩
    rw [← s1 g (x2.sol g hg)]
    simp only [sem, zipLook_mkRow]
    exact .rcd _ _ _ (by simpa using hnd) (s2 g hg)
  | ite c a b ihc iha ihb =>
    intro n E t S S' h hg hS hE ht
    simp only [elabExp] at h
    obtain ⟨S1, h1, h⟩ := bind_ok h
    obtain ⟨S2, h2, h3⟩ := bind_ok h
    obtain ⟨w1, x1, s1⟩ := ihc n E _ S S1 h1 rfl hS hE (LE_closed rfl)
    obtain ⟨w2, x2, s2⟩ := iha n E _ S1 S2 h2 hg w1 (hE.ext x1) (x1.le _ _ ht)
    have x12 := x1.trans x2
    obtain ⟨w3, x3, s3⟩ := ihb n E _ S2 S' h3 hg w2 (hE.ext x12) (x12.le _ _ ht)
    refine ⟨w3, x12.trans x3, fun g hg => ?_⟩
    have g2 := x3.sol g hg
    exact .ite _ _ _ _ _ (s1 g (x2.sol g g2)) (s2 g g2) (s3 g hg)
  | letv x e b ihe ihb =>
    intro n E t S S' h hgd hS hE ht
    simp only [elabExp] at h
    obtain ⟨S1, h1, h2⟩ := bind_ok h
    have x0 := fresh_ext S (n + 1) false
    have l0 := fresh_LE S (n + 1) false
    obtain ⟨w1, x1, s1⟩ := ihe (n + 1) E _ _ S1 h1 rfl (hS.of_img (img_fresh _ _ _))
      ((hE.ext x0).mono (by omega)) l0
    have x01 := x0.trans x1
    generalize hG : generalize S1 n (isExpansive e) (.var S.tv.length) = G at h2
    obtain ⟨S2, sc⟩ := G
    obtain ⟨w2, x2, c2, s2⟩ := generalize_ok w1 (hE.ext x01) (x1.le _ _ l0) hG
    have x02 := x01.trans x2
    obtain ⟨w3, x3, s3⟩ := ihb (n + 1) ((x, sc) :: E) t S2 S' h2 hgd w2
      (((hE.ext x02).mono (by omega)).cons c2) ((x02.le _ _ ht).mono (by omega))
    refine ⟨w3, x02.trans x3, fun g hg => ?_⟩
    have g2 := x3.sol g hg
    refine .letv _ _ _ _ _ (semSch g sc) ⟨_, semSch_self g sc⟩ ?_ ?_ (s3 g hg)
    · intro u hu
      obtain ⟨g1, hg1, he, rfl⟩ := (s2 g g2).1 u hu
      have := s1 g1 hg1
      rwa [he] at this
    · intro hx u v hu hv
      rw [(s2 g g2).2 hx u hu, (s2 g g2).2 hx v hv]
  | letf f rs b ihr ihb =>
    intro n E t S S' h hgd hS hE ht
    simp only [elabExp] at h
    split at h
    · simp at h
    next hr =>
    obtain ⟨S0, h0, h⟩ := bind_ok h
    obtain ⟨S1, h1, h2⟩ := bind_ok h
    have xf := freshN_ext S (n + 1) 3
    have wf : WF (S.freshN (n + 1) 3) := hS.of_img (freshN_spec _ S _).1
    have lv : LE (S.freshN (n + 1) 3) (n + 1) (.var S.tv.length) :=
      LE_vars (.refl _) (by omega) (by omega)
    have la : LE (S.freshN (n + 1) 3) (n + 1)
        (.arrow (.var (S.tv.length + 1)) (.var (S.tv.length + 2))) :=
      LE_arrow (LE_vars (.refl _) (by omega) (by omega)) (LE_vars (.refl _) (by omega) (by omega))
    obtain ⟨w0, x0, s0⟩ := unify_ok (n + 1) k _ S0 _ _ h0 wf la lv
    have xf0 := xf.trans x0
    obtain ⟨w1, x1, s1⟩ := ihr (n + 1) ((f, ⟨[], .var S.tv.length⟩) :: E) _ S0 S1 h1 rfl w0
      (((hE.ext xf0).mono (by omega)).cons fun v hv _ => LE_iff.1 (x0.le _ _ lv) v hv)
      (x0.le _ _ la)
    have x01 := xf0.trans x1
    generalize hG : generalize S1 n false (.var S.tv.length) = G at h2
    obtain ⟨S2, sc⟩ := G
    obtain ⟨w2, x2, c2, s2⟩ := generalize_ok w1 (hE.ext x01) (x1.le _ _ (x0.le _ _ lv)) hG
    have x02 := x01.trans x2
    obtain ⟨w3, x3, s3⟩ := ihb (n + 1) ((f, sc) :: E) t S2 S' h2 hgd w2
      (((hE.ext x02).mono (by omega)).cons c2) ((x02.le _ _ ht).mono (by omega))
    refine ⟨w3, x02.trans x3, fun g hg => ?_⟩
    have g2 := x3.sol g hg
    have arr : ∀ u, semSch g sc u → ∃ g1, Sol S1 g1 ∧ semEnv g1 E = semEnv g E ∧
        u = .arrow (sem g1 (.var (S.tv.length + 1))).1 (sem g1 (.var (S.tv.length + 2))).1 ∧
        u = (sem g1 (.var S.tv.length)).1 := by
      intro u hu
      obtain ⟨g1, hg1, he, rfl⟩ := (s2 g g2).1 u hu
      refine ⟨g1, hg1, he, ?_, rfl⟩
      rw [← s0 g1 (x1.sol g1 hg1)]
      rfl
    have hset : (fun w => ∃ u v, semSch g sc (.arrow u v) ∧ w = GTy.arrow u v) = semSch g sc := by
      funext w
      apply propext
      constructor
      · rintro ⟨u, v, h, rfl⟩; exact h
      · intro h
        obtain ⟨g1, -, -, e, -⟩ := arr w h
        exact ⟨_, _, e ▸ h, e⟩
    refine .letf _ _ _ _ _ (fun u v => semSch g sc (.arrow u v)) (by simpa using hr) ?_ ?_ ?_
    · have h := semSch_self g sc
      obtain ⟨g1, -, -, e, -⟩ := arr _ h
      exact ⟨_, _, e ▸ h⟩
    · intro u v huv
      obtain ⟨g1, hg1, he, e1, e2⟩ := arr _ huv
      have := s1 g1 hg1
      have hc : semEnv g1 ((f, ⟨[], .var S.tv.length⟩) :: E) =
          (f, fun w => w = .arrow u v) :: semEnv g E := by
        show (f, semSch g1 ⟨[], .var S.tv.length⟩) :: semEnv g1 E = _
        rw [semSch_mono, he, ← e2]
      rw [hc] at this
      rw [e1]
      rw [e1] at this
      exact this
    · rw [hset]
      exact s3 g hg
  | rnil =>
    intro n E t S S' h hg hS hE ht
    cases t with
    | arrow a b =>
      simp only [elabExp, Except.ok.injEq] at h
      subst h
      exact ⟨hS, .refl S, fun g _ => .rnil _ _ _⟩
    | _ => simp [elabExp] at h
  | rule p e rest ihe ihr =>
    intro n E t S S' h hgd hS hE ht
    cases t with
    | arrow a b =>
      simp only [Ty.good, Bool.and_eq_true] at hgd
      simp only [elabExp] at h
      obtain ⟨⟨S1, PE⟩, h1, h⟩ := bind_ok h
      obtain ⟨S2, h2, h3⟩ := bind_ok h
      have la : LE S n a := ht.of_fv fun v hv => by simp [Ty.fv, hv]
      have lb : LE S n b := ht.of_fv fun v hv => by simp [Ty.fv, hv]
      have hA := elabPat_apt h1 hgd.1
      obtain ⟨w1, x1, l1, s1⟩ := elabPat_ok k n p a S [] S1 PE h1 hA hS la (by simp)
      obtain ⟨w2, x2, s2⟩ := ihe n _ b S1 S2 h2 hgd.2 w1 ((hE.ext x1).app_mono l1) (x1.le _ _ lb)
      have x12 := x1.trans x2
      obtain ⟨w3, x3, s3⟩ := ihr n E (.arrow a b) S2 S' h3 (by simp [Ty.good, hgd]) w2
        (hE.ext x12) (x12.le _ _ ht)
      refine ⟨w3, x12.trans x3, fun g hg => ?_⟩
      have g2 := x3.sol g hg
      have t2 := s2 g g2
      rw [semEnv_mono] at t2
      exact .rule _ _ _ _ _ _ _ ((s1 g (x2.sol g g2)).plain hA hgd.1) t2 (s3 g hg)
    | _ => simp [elabExp] at h
  | fnil =>
    intro n E t S S' h hg hS hE ht
    cases t with
    | nil =>
      simp only [elabExp, Except.ok.injEq] at h
      subst h
      exact ⟨hS, .refl S, fun g _ => .fnil _⟩
    | _ => simp [elabExp] at h
  | fcons l e r ihe ihr =>
    intro n E t S S' h hgd hS hE ht
    cases t with
    | cons a b =>
      simp only [Ty.good, Bool.and_eq_true] at hgd
      simp only [elabExp] at h
      obtain ⟨S1, h1, h2⟩ := bind_ok h
      have la : LE S n a := ht.of_fv fun v hv => by simp [Ty.fv, hv]
      have lb : LE S n b := ht.of_fv fun v hv => by simp [Ty.fv, hv]
      obtain ⟨w1, x1, s1⟩ := ihe n E a S S1 h1 hgd.1 hS hE la
      obtain ⟨w2, x2, s2⟩ := ihr n E b S1 S' h2 hgd.2 w1 (hE.ext x1) (x1.le _ _ lb)
      exact ⟨w2, x1.trans x2, fun g hg => .fcons _ _ _ _ _ _ (s1 g (x2.sol g hg)) (s2 g hg)⟩
    | _ => simp [elabExp] at h

theorem WF_nil : WF (⟨[], []⟩ : St) :=
  ⟨fun v => by simp [St.img, Srt], fun v w hw => by simp [St.img]⟩

/-- An accepted program has a type. -/
theorem check_typ {k : Nat} {e : Exp} {S : St} (h : check k e = .ok S) : ∃ t, Typ [] e t := by
  simp only [check] at h
  obtain ⟨S1, h1, -⟩ := bind_ok h
  obtain ⟨w1, x1, s1⟩ := elabExp_ok k e 1 [] (.var 0) _ S1 h1 rfl (WF_nil.of_img (img_fresh _ _ _))
    (by intro p hp; simp at hp) (fresh_LE ⟨[], []⟩ 1 false)
  exact ⟨_, s1 _ (sol_of S1 w1 fun _ => (.nil, noRow))⟩

end Mosml.Typing
