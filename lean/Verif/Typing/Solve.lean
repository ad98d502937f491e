import Verif.Typing.Spec

/-!
# Unification

The states of the type checker are read as sets of solutions: assignments of types without
variables to variables.
-/

namespace Mosml.Typing

/-- A row: what each label has. -/
abbrev Row := Nat → Option GTy

def noRow : Row := fun _ => none

/-- An assignment: for a variable used as a type, and for a variable used as a row. -/
abbrev Gam := Nat → GTy × Row

/-- The meaning of a type (first component) or a row (second component). -/
def sem (g : Gam) : Ty → GTy × Row
  | .var v => g v
  | .arrow a b => (.arrow (sem g a).1 (sem g b).1, noRow)
  | .con c ts => (.con c (sem g ts).1, noRow)
  | .rcd r => (.rcd (sem g r).2, noRow)
  | .nil => (.nil, noRow)
  | .cons t ts => (.cons (sem g t).1 (sem g ts).1, noRow)
  | .field l t r => (.nil, fun x => if x = l then some (sem g t).1 else (sem g r).2 x)

theorem sem_ins (g : Gam) (l : Nat) (t : Ty) : ∀ r : Ty, sem g (ins l t r) = sem g (.field l t r)
  | .field l' t' r => by
    simp only [ins]
    split
    · rfl
    · next h =>
      have ih := sem_ins g l t r
      simp only [sem] at ih ⊢
      rw [ih]
      simp only [Prod.mk.injEq, true_and]
      funext x
      by_cases e : x = l
      · subst e
        have : x ≠ l' := by omega
        simp [this]
      · simp [e]
  | .var _ | .arrow _ _ | .con _ _ | .rcd _ | .nil | .cons _ _ => rfl

theorem sem_subst (g : Gam) (f : Nat → Ty) (t : Ty) :
    sem g (t.subst f) = sem (fun v => sem g (f v)) t := by
  induction t with
  | var v => rfl
  | arrow a b iha ihb => simp only [Ty.subst, sem, iha, ihb]
  | con c ts ih => simp only [Ty.subst, sem, ih]
  | rcd r ih => simp only [Ty.subst, sem, ih]
  | nil => rfl
  | cons a b iha ihb => simp only [Ty.subst, sem, iha, ihb]
  | field l a b iha ihb => simp only [Ty.subst, sem_ins, sem, iha, ihb]

theorem sem_congr {g g' : Gam} (t : Ty) (h : ∀ v ∈ t.fv, g v = g' v) : sem g t = sem g' t := by
  induction t with
  | var v => exact h v (by simp [Ty.fv])
  | arrow a b iha ihb =>
    simp only [Ty.fv, List.mem_append] at h
    simp only [sem, iha fun v hv => h v (.inl hv), ihb fun v hv => h v (.inr hv)]
  | con c ts ih => simp only [sem, ih h]
  | rcd r ih => simp only [sem, ih h]
  | nil => rfl
  | cons a b iha ihb =>
    simp only [Ty.fv, List.mem_append] at h
    simp only [sem, iha fun v hv => h v (.inl hv), ihb fun v hv => h v (.inr hv)]
  | field l a b iha ihb =>
    simp only [Ty.fv, List.mem_append] at h
    simp only [sem, iha fun v hv => h v (.inl hv), ihb fun v hv => h v (.inr hv)]

theorem mem_fv_ins {w l : Nat} {t : Ty} : ∀ {r : Ty}, w ∈ (ins l t r).fv ↔ w ∈ t.fv ∨ w ∈ r.fv
  | .field l' t' r => by
    simp only [ins]
    split
    · simp [Ty.fv]
    · have ih := mem_fv_ins (w := w) (l := l) (t := t) (r := r)
      simp only [Ty.fv, List.mem_append, ih]
      tauto
  | .var _ | .arrow _ _ | .con _ _ | .rcd _ | .nil | .cons _ _ => by simp [ins, Ty.fv]

theorem mem_fv_subst {w : Nat} {f : Nat → Ty} {t : Ty} :
    w ∈ (t.subst f).fv ↔ ∃ v ∈ t.fv, w ∈ (f v).fv := by
  have two : ∀ {a b : List Nat}, (∃ v ∈ a ++ b, w ∈ (f v).fv) ↔
      (∃ v ∈ a, w ∈ (f v).fv) ∨ ∃ v ∈ b, w ∈ (f v).fv := by
    intro a b
    simp only [List.mem_append]
    constructor
    · rintro ⟨v, h | h, hw⟩
      · exact .inl ⟨v, h, hw⟩
      · exact .inr ⟨v, h, hw⟩
    · rintro (⟨v, h, hw⟩ | ⟨v, h, hw⟩)
      · exact ⟨v, .inl h, hw⟩
      · exact ⟨v, .inr h, hw⟩
  induction t with
  | var v => simp [Ty.subst, Ty.fv]
  | arrow a b iha ihb =>
    rw [Ty.subst, Ty.fv, Ty.fv, two, List.mem_append]
    exact or_congr iha ihb
  | con c ts ih => simpa only [Ty.subst, Ty.fv] using ih
  | rcd r ih => simpa only [Ty.subst, Ty.fv] using ih
  | nil => simp [Ty.subst, Ty.fv]
  | cons a b iha ihb =>
    rw [Ty.subst, Ty.fv, Ty.fv, two, List.mem_append]
    exact or_congr iha ihb
  | field l a b iha ihb =>
    simp only [Ty.subst, mem_fv_ins, Ty.fv, two, ← iha, ← ihb]

/-- The first label of a row is at least `l`. -/
def HeadLe (l : Nat) : Ty → Prop
  | .field l' _ _ => l ≤ l'
  | _ => True

/-- Fields are in order, everywhere in the type. -/
def Srt : Ty → Prop
  | .var _ => True
  | .arrow a b => Srt a ∧ Srt b
  | .con _ ts => Srt ts
  | .rcd r => Srt r
  | .nil => True
  | .cons t ts => Srt t ∧ Srt ts
  | .field l t r => Srt t ∧ Srt r ∧ HeadLe l r

theorem ins_srt {l : Nat} {t : Ty} (ht : Srt t) : ∀ {r : Ty}, Srt r →
    Srt (ins l t r) ∧ ∀ m, m ≤ l → HeadLe m r → HeadLe m (ins l t r)
  | .field l' t' r, hr => by
    simp only [Srt] at hr
    simp only [ins]
    split
    · next h =>
      exact ⟨⟨ht, hr, h⟩, fun m hm _ => hm⟩
    · next h =>
      have ih := ins_srt ht hr.2.1 (l := l)
      exact ⟨⟨hr.1, ih.1, ih.2 l' (by omega) hr.2.2⟩, fun m _ h => h⟩
  | .var _, h | .arrow _ _, h | .con _ _, h | .rcd _, h | .nil, h | .cons _ _, h =>
    ⟨⟨ht, h, trivial⟩, fun _ hm _ => hm⟩

theorem subst_srt {f : Nat → Ty} (hf : ∀ v, Srt (f v)) : ∀ t : Ty, Srt (t.subst f)
  | .var v => hf v
  | .arrow a b => ⟨subst_srt hf a, subst_srt hf b⟩
  | .con _ ts => subst_srt hf ts
  | .rcd r => subst_srt hf r
  | .nil => trivial
  | .cons t ts => ⟨subst_srt hf t, subst_srt hf ts⟩
  | .field _ t r => (ins_srt (subst_srt hf t) (subst_srt hf r)).1

/-- The solutions of a state. -/
def Sol (S : St) (g : Gam) : Prop := ∀ v, g v = sem g (S.img v)

theorem sem_app {S : St} {g : Gam} (h : Sol S g) (t : Ty) : sem g (S.app t) = sem g t := by
  rw [St.app, sem_subst]
  exact sem_congr t fun v _ => (h v).symm

/-- Images have their fields in order, and consist of variables that stand for themselves. -/
structure WF (S : St) : Prop where
  srt : ∀ v, Srt (S.img v)
  idem : ∀ v, ∀ w ∈ (S.img v).fv, S.img w = .var w

/-- The variables of a type exist and have at most the level `m`. -/
def LE (S : St) (m : Nat) (t : Ty) : Prop :=
  ∀ v ∈ t.fv, v < S.tv.length ∧ ∀ w ∈ (S.img v).fv, w < S.tv.length ∧ S.lvl w ≤ m

/-- A later state: more variables, fewer solutions, lower levels. -/
structure Ext (S S' : St) : Prop where
  len : S.tv.length ≤ S'.tv.length
  sol : ∀ g, Sol S' g → Sol S g
  le : ∀ m t, LE S m t → LE S' m t

theorem Ext.refl (S : St) : Ext S S := ⟨Nat.le_refl _, fun _ h => h, fun _ _ h => h⟩

theorem Ext.trans {S S' S'' : St} (h : Ext S S') (h' : Ext S' S'') : Ext S S'' :=
  ⟨Nat.le_trans h.len h'.len, fun g hg => h.sol g (h'.sol g hg),
    fun m t ht => h'.le m t (h.le m t ht)⟩

theorem LE.mono {S : St} {m n : Nat} {t : Ty} (h : LE S m t) (hn : m ≤ n) : LE S n t :=
  fun v hv => ⟨(h v hv).1, fun w hw => ⟨((h v hv).2 w hw).1, Nat.le_trans ((h v hv).2 w hw).2 hn⟩⟩

theorem LE.of_fv {S : St} {m : Nat} {t u : Ty} (h : LE S m t) (hu : ∀ v ∈ u.fv, v ∈ t.fv) :
    LE S m u := fun v hv => h v (hu v hv)

theorem LE.app {S : St} (hS : WF S) {m : Nat} {t : Ty} (h : LE S m t) : LE S m (S.app t) := by
  intro v hv
  rw [St.app, mem_fv_subst] at hv
  obtain ⟨x, hx, hv⟩ := hv
  have h1 := (h x hx).2 v hv
  refine ⟨h1.1, ?_⟩
  rw [hS.idem x v hv]
  intro w hw
  simp only [Ty.fv, List.mem_singleton] at hw
  exact hw ▸ h1

theorem app_unbound {S : St} (hS : WF S) {t : Ty} {v : Nat} (h : v ∈ (S.app t).fv) :
    S.img v = .var v := by
  rw [St.app, mem_fv_subst] at h
  obtain ⟨x, _, hv⟩ := h
  exact hS.idem x v hv

theorem app_srt {S : St} (hS : WF S) (t : Ty) : Srt (S.app t) := subst_srt hS.srt t

/-! ## New variables, levels, links -/

theorem img_fresh (S : St) (l : Nat) (r : Bool) : (S.fresh l r).img = S.img := by
  funext v
  simp only [St.img, St.fresh]
  by_cases h : v < S.tv.length
  · rw [List.getElem?_append_left h]
  · rw [List.getElem?_append_right (by omega)]
    have e : S.tv[v]? = none := by simp; omega
    rw [e]
    by_cases e : v - S.tv.length = 0
    · rw [e]
      simp
      omega
    · have : ([⟨.var S.tv.length, l, r⟩] : List TV)[v - S.tv.length]? = none := by simp; omega
      rw [this]

theorem len_fresh (S : St) (l : Nat) (r : Bool) : (S.fresh l r).tv.length = S.tv.length + 1 := by
  simp [St.fresh]

theorem lvl_fresh_lt (S : St) (l : Nat) (r : Bool) {v : Nat} (h : v < S.tv.length) :
    (S.fresh l r).lvl v = S.lvl v := by
  simp only [St.lvl, St.fresh]
  rw [List.getElem?_append_left h]

theorem lvl_fresh_new (S : St) (l : Nat) (r : Bool) : (S.fresh l r).lvl S.tv.length = l := by
  simp [St.lvl, St.fresh]

theorem WF.of_img {S S' : St} (h : WF S) (e : S'.img = S.img) : WF S' :=
  ⟨by rw [e]; exact h.srt, by rw [e]; exact h.idem⟩

theorem Ext.of_img {S S' : St} (e : S'.img = S.img) (hl : S.tv.length ≤ S'.tv.length)
    (hlv : ∀ v, v < S.tv.length → S'.lvl v ≤ S.lvl v) : Ext S S' := by
  refine ⟨hl, ?_, ?_⟩
  · intro g hg v
    rw [← e]
    exact hg v
  · intro m t h v hv
    have h1 := h v hv
    refine ⟨by omega, ?_⟩
    rw [e]
    intro w hw
    have h2 := h1.2 w hw
    exact ⟨by omega, Nat.le_trans (hlv w h2.1) h2.2⟩

theorem fresh_ext (S : St) (l : Nat) (r : Bool) : Ext S (S.fresh l r) :=
  .of_img (img_fresh S l r) (by rw [len_fresh]; omega)
    fun v hv => by rw [lvl_fresh_lt S l r hv]

theorem LE_var {S : St} {m v : Nat} (hv : v < S.tv.length) (hi : S.img v = .var v)
    (hl : S.lvl v ≤ m) : LE S m (.var v) := by
  intro w hw
  simp only [Ty.fv, List.mem_singleton] at hw
  subst hw
  refine ⟨hv, ?_⟩
  rw [hi]
  intro u hu
  simp only [Ty.fv, List.mem_singleton] at hu
  exact hu ▸ ⟨hv, hl⟩

theorem img_ge {S : St} {v : Nat} (h : S.tv.length ≤ v) : S.img v = .var v := by
  have e : S.tv[v]? = none := by simp; exact h
  simp [St.img, e]

theorem fresh_LE (S : St) (l : Nat) (r : Bool) : LE (S.fresh l r) l (.var S.tv.length) :=
  LE_var (by rw [len_fresh]; omega) (by rw [img_fresh]; exact img_ge (Nat.le_refl _))
    (by rw [lvl_fresh_new])

theorem freshN_spec : ∀ (n : Nat) (S : St) (l : Nat),
    (S.freshN l n).img = S.img ∧ (S.freshN l n).tv.length = S.tv.length + n ∧
      (∀ v, v < S.tv.length → (S.freshN l n).lvl v = S.lvl v) ∧
      (∀ v, S.tv.length ≤ v → v < S.tv.length + n → (S.freshN l n).lvl v = l)
  | 0, S, l => ⟨rfl, rfl, fun _ _ => rfl, fun v h1 h2 => by omega⟩
  | n + 1, S, l => by
    obtain ⟨h1, h2, h3, h4⟩ := freshN_spec n (S.fresh l false) l
    simp only [St.freshN]
    refine ⟨by rw [h1, img_fresh], by rw [h2, len_fresh]; omega, ?_, ?_⟩
    · intro v hv
      rw [h3 v (by rw [len_fresh]; omega), lvl_fresh_lt _ _ _ hv]
    · intro v hv hv'
      by_cases e : v = S.tv.length
      · subst e
        rw [h3 _ (by rw [len_fresh]; omega), lvl_fresh_new]
      · exact h4 v (by rw [len_fresh]; omega) (by rw [len_fresh]; omega)

theorem freshN_ext (S : St) (l n : Nat) : Ext S (S.freshN l n) := by
  obtain ⟨h1, h2, h3, -⟩ := freshN_spec n S l
  exact .of_img h1 (by omega) fun v hv => by rw [h3 v hv]

theorem freshN_LE (S : St) (l n : Nat) {v : Nat} (h : S.tv.length ≤ v)
    (h' : v < S.tv.length + n) : LE (S.freshN l n) l (.var v) := by
  obtain ⟨h1, h2, -, h4⟩ := freshN_spec n S l
  exact LE_var (by omega) (by rw [h1]; exact img_ge h) (by rw [h4 v h h'])

theorem img_prune (S : St) (m : Nat) (vs : List Nat) : (S.prune m vs).img = S.img := by
  funext v
  simp only [St.img, St.prune, List.getElem?_mapIdx]
  cases S.tv[v]? with
  | none => rfl
  | some e => simp only [Option.map_some]; split <;> rfl

theorem len_prune (S : St) (m : Nat) (vs : List Nat) :
    (S.prune m vs).tv.length = S.tv.length := by simp [St.prune]

theorem lvl_prune (S : St) (m : Nat) (vs : List Nat) (v : Nat) :
    (S.prune m vs).lvl v = if v ∈ vs ∧ m < S.lvl v then m else S.lvl v := by
  simp only [St.lvl, St.prune, List.getElem?_mapIdx]
  obtain h | ⟨e, h⟩ : S.tv[v]? = none ∨ ∃ e, S.tv[v]? = some e := by
    cases S.tv[v]? with
    | none => exact .inl rfl
    | some e => exact .inr ⟨e, rfl⟩
  · simp [h]
  · simp only [h, Option.map_some]; split <;> rfl

theorem prune_ext (S : St) (m : Nat) (vs : List Nat) : Ext S (S.prune m vs) :=
  .of_img (img_prune S m vs) (by rw [len_prune]) fun v _ => by
    rw [lvl_prune]; split <;> omega

theorem len_bind (S : St) (v : Nat) (t : Ty) : (S.bind v t).tv.length = S.tv.length := by
  simp [St.bind]

theorem lvl_bind (S : St) (v : Nat) (t : Ty) : (S.bind v t).lvl = S.lvl := by
  funext w
  simp only [St.lvl, St.bind, List.getElem?_map]
  cases S.tv[w]? <;> rfl

theorem img_bind (S : St) {v : Nat} (hv : v < S.tv.length) (t : Ty) (w : Nat) :
    (S.bind v t).img w = (S.img w).subst (sub1 v t) := by
  simp only [St.img, St.bind, List.getElem?_map]
  cases h : S.tv[w]? with
  | none =>
    simp at h
    have : w ≠ v := by omega
    simp [Ty.subst, sub1, this]
  | some e => rfl

theorem len_link (S : St) (v : Nat) (t : Ty) : (S.link v t).tv.length = S.tv.length := by
  rw [St.link, len_bind, len_prune]

theorem img_link (S : St) {v : Nat} (hv : v < S.tv.length) (t : Ty) (w : Nat) :
    (S.link v t).img w = (S.img w).subst (sub1 v t) := by
  rw [St.link, img_bind _ (by rw [len_prune]; exact hv), img_prune]

theorem mem_sub1 {v x w : Nat} {t : Ty} :
    w ∈ (sub1 v t x).fv ↔ (x = v ∧ w ∈ t.fv) ∨ (x ≠ v ∧ w = x) := by
  simp only [sub1]
  split
  · next h => simp [h]
  · next h => simp [h, Ty.fv]

theorem sub1_srt {v : Nat} {t : Ty} (ht : Srt t) (x : Nat) : Srt (sub1 v t x) := by
  simp only [sub1]
  split
  · exact ht
  · trivial

theorem subst_fix {f : Nat → Ty} : ∀ t : Ty, (∀ v ∈ t.fv, f v = .var v) → Srt t → t.subst f = t
  | .var v, h, _ => h v (by simp [Ty.fv])
  | .arrow a b, h, hs => by
    simp only [Ty.fv, List.mem_append] at h
    simp only [Ty.subst, subst_fix a (fun v hv => h v (.inl hv)) hs.1,
      subst_fix b (fun v hv => h v (.inr hv)) hs.2]
  | .con _ ts, h, hs => by simp only [Ty.subst, subst_fix ts h hs]
  | .rcd r, h, hs => by simp only [Ty.subst, subst_fix r h hs]
  | .nil, _, _ => rfl
  | .cons a b, h, hs => by
    simp only [Ty.fv, List.mem_append] at h
    simp only [Ty.subst, subst_fix a (fun v hv => h v (.inl hv)) hs.1,
      subst_fix b (fun v hv => h v (.inr hv)) hs.2]
  | .field l a b, h, hs => by
    simp only [Ty.fv, List.mem_append] at h
    simp only [Ty.subst, subst_fix a (fun v hv => h v (.inl hv)) hs.1,
      subst_fix b (fun v hv => h v (.inr hv)) hs.2.1]
    have := hs.2.2
    cases b with
    | field l' t' r => simp only [ins]; rw [if_pos (show l ≤ l' from this)]
    | _ => rfl

/-- Linking a variable. -/
theorem link_ok {S : St} (hS : WF S) {v : Nat} {t : Ty} (hv : v < S.tv.length)
    (hi : S.img v = .var v) (ht : Srt t) (hf : ∀ w ∈ t.fv, w < S.tv.length ∧ S.img w = .var w)
    (ho : v ∉ t.fv) :
    WF (S.link v t) ∧ Ext S (S.link v t) ∧ ∀ g, Sol (S.link v t) g → g v = sem g t := by
  have hsol : ∀ g, Sol (S.link v t) g → g v = sem g t := by
    intro g hg
    rw [hg v, img_link S hv, hi]
    simp [Ty.subst, sub1]
  refine ⟨⟨?_, ?_⟩, ⟨by rw [len_link], ?_, ?_⟩, hsol⟩
  · intro w
    rw [img_link S hv]
    exact subst_srt (sub1_srt ht) _
  · intro x w hw
    rw [img_link S hv, mem_fv_subst] at hw
    obtain ⟨y, hy, hw⟩ := hw
    rw [img_link S hv]
    rw [mem_sub1] at hw
    rcases hw with ⟨rfl, hw⟩ | ⟨hne, rfl⟩
    · rw [(hf w hw).2]
      have : w ≠ y := fun e => ho (e ▸ hw)
      simp [Ty.subst, sub1, this]
    · rw [hS.idem x w hy]
      simp [Ty.subst, sub1, hne]
  · intro g hg x
    have h1 := hg x
    rw [img_link S hv, sem_subst] at h1
    rw [h1]
    refine sem_congr _ fun y _ => ?_
    simp only [sub1]
    split
    · next e => rw [e, hsol g hg]
    · rfl
  · intro m u hu x hx
    have h1 := hu x hx
    refine ⟨by rw [len_link]; exact h1.1, ?_⟩
    rw [img_link S hv]
    intro w hw
    rw [mem_fv_subst] at hw
    obtain ⟨y, hy, hw⟩ := hw
    rw [len_link]
    have h2 := h1.2 y hy
    rw [mem_sub1] at hw
    rw [St.link, lvl_bind, lvl_prune]
    rcases hw with ⟨rfl, hw⟩ | ⟨hne, rfl⟩
    · refine ⟨(hf w hw).1, ?_⟩
      split
      · exact h2.2
      · next e =>
        simp only [hw, true_and, not_lt] at e
        omega
    · refine ⟨h2.1, ?_⟩
      split <;> omega

/-! ## Unification -/

/-- What unification of two types achieves. -/
def Unified (S S' : St) (a b : Ty) : Prop :=
  WF S' ∧ Ext S S' ∧ ∀ g, Sol S' g → sem g a = sem g b

theorem extractLab_ok {S : St} (hS : WF S) {l : Nat} {rho : Ty} {m : Nat} (hm : LE S m rho)
    {S' : St} {t r : Ty} (h : extractLab S l rho = .ok (S', t, r)) :
    WF S' ∧ Ext S S' ∧ LE S' m t ∧ LE S' m r ∧ ∀ g, Sol S' g →
      (sem g rho).2 = fun x => if x = l then some (sem g t).1 else (sem g r).2 x := by
  cases rho with
  | var q =>
    simp only [extractLab] at h
    split at h
    · next hq =>
      simp only [Except.ok.injEq, Prod.mk.injEq] at h
      obtain ⟨rfl, rfl, rfl⟩ := h
      have hq1 := hm q (by simp [Ty.fv])
      have hql : S.lvl q ≤ m := (hq1.2 q (by rw [hq]; simp [Ty.fv])).2
      generalize hn : S.tv.length = n at *
      generalize hA : S.fresh (S.lvl q) true = A
      have eA : Ext S A := hA ▸ fresh_ext _ _ _
      have iA : A.img = S.img := hA ▸ img_fresh _ _ _
      have lA : A.tv.length = n + 1 := by rw [← hA, len_fresh, hn]
      have LA : LE A m (.var n) := by
        rw [← hA, ← hn]; exact (fresh_LE S (S.lvl q) true).mono hql
      generalize hB : A.fresh (S.lvl q) false = B
      have eB : Ext A B := hB ▸ fresh_ext _ _ _
      have iB : B.img = S.img := by rw [← hB, img_fresh, iA]
      have lB : B.tv.length = n + 2 := by rw [← hB, len_fresh, lA]
      have LB : LE B m (.var (n + 1)) := by
        rw [← hB, ← lA]; exact (fresh_LE A (S.lvl q) false).mono hql
      have hlk := link_ok (hS.of_img iB) (v := q) (t := .field l (.var (n + 1)) (.var n))
        (by omega) (by rw [iB]; exact hq) ⟨trivial, trivial, trivial⟩
        (by
          intro w hw
          simp only [Ty.fv, List.cons_append, List.nil_append, List.mem_cons,
            List.not_mem_nil, or_false] at hw
          rw [iB]
          rcases hw with rfl | rfl
          · exact ⟨by omega, img_ge (by omega)⟩
          · exact ⟨by omega, img_ge (by omega)⟩)
        (by
          simp only [Ty.fv, List.cons_append, List.nil_append, List.mem_cons,
            List.not_mem_nil, or_false, not_or]
          omega)
      obtain ⟨h1, h2, h3⟩ := hlk
      refine ⟨h1, (eA.trans eB).trans h2, h2.le _ _ LB, h2.le _ _ (eB.le _ _ LA), ?_⟩
      intro g hg
      have := h3 g hg
      simp only [sem] at this ⊢
      rw [this]
    · simp at h
  | _ => simp [extractLab] at h

theorem unifyRho_ok {S : St} (hS : WF S) {r1 r2 : Ty} {m : Nat} (h1 : LE S m r1) (h2 : LE S m r2)
    {S' : St} (h : unifyRho S r1 r2 = .ok S') : Unified S S' r1 r2 := by
  have refl : Unified S S r1 r1 := ⟨hS, .refl S, fun _ _ => rfl⟩
  cases r1 with
  | nil =>
    cases r2 with
    | nil => simp only [unifyRho, Except.ok.injEq] at h; exact h ▸ refl
    | var b =>
      simp only [unifyRho] at h
      split at h
      · next hb =>
        simp only [Except.ok.injEq] at h
        obtain ⟨e1, e2, e3⟩ := link_ok hS (v := b) (t := .nil) (h2 b (by simp [Ty.fv])).1 hb trivial
          (by simp [Ty.fv]) (by simp [Ty.fv])
        rw [← h]
        exact ⟨e1, e2, fun g hg => (e3 g hg).symm⟩
      · simp at h
    | _ => simp [unifyRho] at h
  | var a =>
    cases r2 with
    | nil =>
      simp only [unifyRho] at h
      split at h
      · next hb =>
        simp only [Except.ok.injEq] at h
        obtain ⟨e1, e2, e3⟩ := link_ok hS (v := a) (t := .nil) (h1 a (by simp [Ty.fv])).1 hb trivial
          (by simp [Ty.fv]) (by simp [Ty.fv])
        rw [← h]
        exact ⟨e1, e2, fun g hg => e3 g hg⟩
      · simp at h
    | var b =>
      simp only [unifyRho] at h
      split at h
      · next e =>
        simp only [Except.ok.injEq] at h
        rw [← h, ← e]
        exact refl
      · next e =>
        split at h
        · next hb =>
          simp only [Except.ok.injEq] at h
          obtain ⟨e1, e2, e3⟩ := link_ok hS (v := a) (t := .var b) (h1 a (by simp [Ty.fv])).1 hb.1
            trivial (by
              intro w hw
              simp only [Ty.fv, List.mem_singleton] at hw
              exact hw ▸ ⟨(h2 b (by simp [Ty.fv])).1, hb.2⟩) (by simp [Ty.fv, e])
          rw [← h]
          exact ⟨e1, e2, fun g hg => e3 g hg⟩
        · simp at h
    | _ => simp [unifyRho] at h
  | _ => cases r2 <;> simp [unifyRho] at h

/-- The meaning of fields followed by a row. -/
def rowSem (g : Gam) (fs : List (Nat × Ty)) (r : Ty) (l : Nat) : Option GTy :=
  match fs with
  | [] => (sem g r).2 l
  | (l', t) :: fs => if l = l' then some (sem g t).1 else rowSem g fs r l

theorem rowSem_row (g : Gam) (l : Nat) : ∀ r : Ty, rowSem g r.fields r.rend l = (sem g r).2 l
  | .field l' t r => by
    simp only [Ty.fields, Ty.rend, rowSem, sem, rowSem_row g l r]
  | .var _ | .arrow _ _ | .con _ _ | .rcd _ | .nil | .cons _ _ => rfl

theorem rowSem_not {g : Gam} {r : Ty} {l : Nat} : ∀ {fs : List (Nat × Ty)},
    (∀ p ∈ fs, p.1 ≠ l) → rowSem g fs r l = (sem g r).2 l
  | [], _ => rfl
  | (l', t) :: fs, h => by
    simp only [rowSem]
    rw [if_neg (Ne.symm (h (l', t) (by simp)))]
    exact rowSem_not fun p hp => h p (by simp [hp])

theorem rowSem_end {g : Gam} {r r' : Ty} {l : Nat} (h : (sem g r).2 l = (sem g r').2 l) :
    ∀ fs : List (Nat × Ty), rowSem g fs r l = rowSem g fs r' l
  | [] => h
  | (l', t) :: fs => by simp only [rowSem, rowSem_end h fs]

/-- Labels in order. -/
def Ord (fs : List (Nat × Ty)) : Prop := fs.Pairwise fun a b => a.1 ≤ b.1

theorem fields_ge {l : Nat} : ∀ {r : Ty}, Srt r → HeadLe l r → ∀ p ∈ r.fields, l ≤ p.1
  | .field l' t r, hs, hh, p, hp => by
    simp only [Ty.fields, List.mem_cons] at hp
    rcases hp with rfl | hp
    · exact hh
    · exact fields_ge hs.2.1 (by
        have := hs.2.2
        cases r with
        | field l'' _ _ => exact Nat.le_trans (show l ≤ l' from hh) this
        | _ => trivial) p hp
  | .var _, _, _, p, hp | .arrow _ _, _, _, p, hp | .con _ _, _, _, p, hp | .rcd _, _, _, p, hp
  | .nil, _, _, p, hp | .cons _ _, _, _, p, hp => by simp [Ty.fields] at hp

theorem fields_ord : ∀ {r : Ty}, Srt r → Ord r.fields
  | .field l t r, h =>
    List.pairwise_cons.2 ⟨fun p hp => fields_ge h.2.1 h.2.2 p hp, fields_ord h.2.1⟩
  | .var _, _ | .arrow _ _, _ | .con _ _, _ | .rcd _, _ | .nil, _ | .cons _ _, _ =>
    List.Pairwise.nil

theorem fields_fv : ∀ {r : Ty} {p : Nat × Ty} {v : Nat}, p ∈ r.fields → v ∈ p.2.fv → v ∈ r.fv
  | .field l t r, p, v, hp, hv => by
    simp only [Ty.fields, List.mem_cons] at hp
    simp only [Ty.fv, List.mem_append]
    rcases hp with rfl | hp
    · exact .inl hv
    · exact .inr (fields_fv hp hv)
  | .var _, p, _, hp, _ | .arrow _ _, p, _, hp, _ | .con _ _, p, _, hp, _ | .rcd _, p, _, hp, _
  | .nil, p, _, hp, _ | .cons _ _, p, _, hp, _ => by simp [Ty.fields] at hp

theorem rend_fv : ∀ {r : Ty} {v : Nat}, v ∈ r.rend.fv → v ∈ r.fv
  | .field _ _ _, v, hv => by
    simp only [Ty.fv, List.mem_append]
    exact .inr (rend_fv hv)
  | .var _, _, hv | .arrow _ _, _, hv | .con _ _, _, hv | .rcd _, _, hv
  | .nil, _, hv | .cons _ _, _, hv => hv

theorem bind_ok {α β : Type} {x : Res α} {f : α → Res β} {b : β} (h : (x >>= f) = .ok b) :
    ∃ a, x = .ok a ∧ f a = .ok b := by
  cases x with
  | error e => simp [bind, Except.bind] at h
  | ok a => exact ⟨a, rfl, h⟩

theorem unifyRec_ok {u : St → Ty → Ty → Res St} {m : Nat}
    (hu : ∀ S S' a b, u S a b = .ok S' → WF S → LE S m a → LE S m b → Unified S S' a b) :
    ∀ (n : Nat) (S : St) (fs1 : List (Nat × Ty)) (r1 : Ty) (fs2 : List (Nat × Ty)) (r2 : Ty)
      (S' : St), unifyRec u n S fs1 r1 fs2 r2 = .ok S' → WF S →
      (∀ p ∈ fs1, LE S m p.2) → LE S m r1 → (∀ p ∈ fs2, LE S m p.2) → LE S m r2 →
      Ord fs1 → Ord fs2 →
      WF S' ∧ Ext S S' ∧ ∀ g, Sol S' g → ∀ l, rowSem g fs1 r1 l = rowSem g fs2 r2 l := by
  intro n
  induction n with
  | zero =>
    intro S fs1 r1 fs2 r2 S' h hS l1 lr1 l2 lr2 o1 o2
    cases fs1 with
    | nil =>
      cases fs2 with
      | nil =>
        simp only [unifyRec] at h
        obtain ⟨e1, e2, e3⟩ := unifyRho_ok hS lr1 lr2 h
        exact ⟨e1, e2, fun g hg l => by simp only [rowSem, e3 g hg]⟩
      | cons => simp [unifyRec] at h
    | cons => cases fs2 <;> simp [unifyRec] at h
  | succ n ih =>
    intro S fs1 r1 fs2 r2 S' h hS l1 lr1 l2 lr2 o1 o2
    -- one field is missing on the right
    have left : ∀ a t fs1', fs1 = (a, t) :: fs1' → (∀ p ∈ fs2, p.1 ≠ a) →
        (do let (S, t2, r2') ← extractLab S a r2
            let S ← u S t t2
            unifyRec u n S fs1' r1 fs2 r2') = .ok S' →
        WF S' ∧ Ext S S' ∧ ∀ g, Sol S' g → ∀ l, rowSem g fs1 r1 l = rowSem g fs2 r2 l := by
      clear h
      intro a t fs1' e hne h
      subst e
      obtain ⟨⟨S1, t2, r2'⟩, hx, h⟩ := bind_ok h
      obtain ⟨S2, hux, h⟩ := bind_ok h
      obtain ⟨w1, x1, lt, lr, s1⟩ := extractLab_ok hS lr2 hx
      obtain ⟨w2, x2, s2⟩ := hu S1 S2 t t2 hux w1 (x1.le _ _ (l1 (a, t) (by simp))) lt
      have x12 := x1.trans x2
      obtain ⟨w3, x3, s3⟩ := ih S2 fs1' r1 fs2 r2' S' h w2
        (fun p hp => x12.le _ _ (l1 p (by simp [hp]))) (x12.le _ _ lr1)
        (fun p hp => x12.le _ _ (l2 p hp)) (x2.le _ _ lr)
        (List.pairwise_cons.1 o1).2 o2
      refine ⟨w3, x12.trans x3, fun g hg l => ?_⟩
      have hg2 := x3.sol g hg
      have hg1 := x2.sol g hg2
      have e1 := s1 g hg1
      simp only [rowSem]
      by_cases el : l = a
      · subst el
        rw [if_pos rfl, rowSem_not hne, e1]
        simp [s2 g hg2]
      · rw [if_neg el, s3 g hg l]
        exact rowSem_end (by rw [e1]; simp [el]) fs2
    have right : ∀ a t fs2', fs2 = (a, t) :: fs2' → (∀ p ∈ fs1, p.1 ≠ a) →
        (do let (S, t1, r1') ← extractLab S a r1
            let S ← u S t1 t
            unifyRec u n S fs1 r1' fs2' r2) = .ok S' →
        WF S' ∧ Ext S S' ∧ ∀ g, Sol S' g → ∀ l, rowSem g fs1 r1 l = rowSem g fs2 r2 l := by
      clear h
      intro a t fs2' e hne h
      subst e
      obtain ⟨⟨S1, t1, r1'⟩, hx, h⟩ := bind_ok h
      obtain ⟨S2, hux, h⟩ := bind_ok h
      obtain ⟨w1, x1, lt, lr, s1⟩ := extractLab_ok hS lr1 hx
      obtain ⟨w2, x2, s2⟩ := hu S1 S2 t1 t hux w1 lt (x1.le _ _ (l2 (a, t) (by simp)))
      have x12 := x1.trans x2
      obtain ⟨w3, x3, s3⟩ := ih S2 fs1 r1' fs2' r2 S' h w2
        (fun p hp => x12.le _ _ (l1 p hp)) (x2.le _ _ lr)
        (fun p hp => x12.le _ _ (l2 p (by simp [hp]))) (x12.le _ _ lr2)
        o1 (List.pairwise_cons.1 o2).2
      refine ⟨w3, x12.trans x3, fun g hg l => ?_⟩
      have hg2 := x3.sol g hg
      have hg1 := x2.sol g hg2
      have e1 := s1 g hg1
      simp only [rowSem]
      by_cases el : l = a
      · subst el
        rw [if_pos rfl, rowSem_not hne, e1]
        simp [s2 g hg2]
      · rw [if_neg el, ← s3 g hg l]
        exact rowSem_end (by rw [e1]; simp [el]) fs1
    cases fs1 with
    | nil =>
      cases fs2 with
      | nil =>
        simp only [unifyRec] at h
        obtain ⟨e1, e2, e3⟩ := unifyRho_ok hS lr1 lr2 h
        exact ⟨e1, e2, fun g hg l => by simp only [rowSem, e3 g hg]⟩
      | cons p fs2 =>
        obtain ⟨a, t⟩ := p
        simp only [unifyRec] at h
        exact right a t fs2 rfl (by simp) h
    | cons p fs1 =>
      obtain ⟨a, t⟩ := p
      cases fs2 with
      | nil =>
        simp only [unifyRec] at h
        exact left a t fs1 rfl (by simp) h
      | cons q fs2 =>
        obtain ⟨b, t'⟩ := q
        simp only [unifyRec] at h
        split at h
        · next hlt =>
          refine left a t fs1 rfl ?_ h
          intro p hp
          simp only [List.mem_cons] at hp
          rcases hp with rfl | hp
          · simp only; omega
          · have := (List.pairwise_cons.1 o2).1 p hp
            simp only at this
            omega
        · split at h
          · next hlt =>
            refine right b t' fs2 rfl ?_ h
            intro p hp
            simp only [List.mem_cons] at hp
            rcases hp with rfl | hp
            · simp only; omega
            · have := (List.pairwise_cons.1 o1).1 p hp
              simp only at this
              omega
          · have eab : a = b := by omega
            subst eab
            obtain ⟨S2, hux, h⟩ := bind_ok h
            obtain ⟨w2, x2, s2⟩ := hu S S2 t t' hux hS (l1 (a, t) (by simp)) (l2 (a, t') (by simp))
            obtain ⟨w3, x3, s3⟩ := ih S2 fs1 r1 fs2 r2 S' h w2
              (fun p hp => x2.le _ _ (l1 p (by simp [hp]))) (x2.le _ _ lr1)
              (fun p hp => x2.le _ _ (l2 p (by simp [hp]))) (x2.le _ _ lr2)
              (List.pairwise_cons.1 o1).2 (List.pairwise_cons.1 o2).2
            refine ⟨w3, x2.trans x3, fun g hg l => ?_⟩
            simp only [rowSem]
            rw [s3 g hg l, s2 g (x3.sol g hg)]

theorem linkVar_ok {S : St} (hS : WF S) {v : Nat} {t : Ty} {m : Nat} (hv : LE S m (.var v))
    (hi : S.img v = .var v) (ht : Srt t) (hl : LE S m t) (hf : ∀ w ∈ t.fv, S.img w = .var w)
    {S' : St} (h : linkVar S v t = .ok S') : Unified S S' (.var v) t := by
  simp only [linkVar] at h
  split at h
  · simp at h
  · next ho =>
    simp only [Except.ok.injEq] at h
    rw [← h]
    exact link_ok hS (hv v (by simp [Ty.fv])).1 hi ht (fun w hw => ⟨(hl w hw).1, hf w hw⟩) ho

/-- Unification of two types makes them equal in all solutions. -/
theorem unify_ok (m : Nat) : ∀ (k : Nat) (S S' : St) (a b : Ty), unify k S a b = .ok S' →
    WF S → LE S m a → LE S m b → Unified S S' a b := by
  intro k
  induction k with
  | zero => intro S S' a b h; simp [unify] at h
  | succ k ih =>
    intro S S' a b h hS la lb
    have key : Unified S S' (S.app a) (S.app b) := by
      have la' := la.app hS
      have lb' := lb.app hS
      have ua : ∀ w ∈ (S.app a).fv, S.img w = .var w := fun w hw => app_unbound hS hw
      have ub : ∀ w ∈ (S.app b).fv, S.img w = .var w := fun w hw => app_unbound hS hw
      have sa := app_srt hS a
      have sb := app_srt hS b
      simp only [unify] at h
      generalize S.app a = A at *
      generalize S.app b = B at *
      have two : ∀ a1 a2 b1 b2 : Ty, LE S m a1 → LE S m a2 → LE S m b1 → LE S m b2 →
          (do unify k (← unify k S a1 b1) a2 b2) = .ok S' →
          WF S' ∧ Ext S S' ∧ ∀ g, Sol S' g → sem g a1 = sem g b1 ∧ sem g a2 = sem g b2 := by
        intro a1 a2 b1 b2 l1 l2 l3 l4 h
        obtain ⟨S1, h1, h⟩ := bind_ok h
        obtain ⟨w1, x1, s1⟩ := ih S S1 a1 b1 h1 hS l1 l3
        obtain ⟨w2, x2, s2⟩ := ih S1 S' a2 b2 h w1 (x1.le _ _ l2) (x1.le _ _ l4)
        exact ⟨w2, x1.trans x2, fun g hg => ⟨s1 g (x2.sol g hg), s2 g hg⟩⟩
      have symm : ∀ {S S' : St} {x y : Ty}, Unified S S' x y → Unified S S' y x :=
        fun h => ⟨h.1, h.2.1, fun g hg => (h.2.2 g hg).symm⟩
      cases A with
      | var v =>
        have iv : S.img v = .var v := ua v (by simp [Ty.fv])
        cases B with
        | var w =>
          have iw : S.img w = .var w := ub w (by simp [Ty.fv])
          simp only at h
          split at h
          · next e =>
            simp only [Except.ok.injEq] at h
            rw [← h, e]
            exact ⟨hS, .refl S, fun _ _ => rfl⟩
          · split at h
            · exact linkVar_ok hS la' iv sb lb' ub h
            · exact symm (linkVar_ok hS lb' iw sa la' ua h)
        | _ => exact linkVar_ok hS la' iv sb lb' ub h
      | arrow a1 a2 =>
        cases B with
        | var w => exact symm (linkVar_ok hS lb' (ub w (by simp [Ty.fv])) sa la' ua h)
        | arrow b1 b2 =>
          obtain ⟨w, x, s⟩ := two a1 a2 b1 b2 (la'.of_fv (by simp [Ty.fv]; tauto))
            (la'.of_fv (by simp [Ty.fv]; tauto)) (lb'.of_fv (by simp [Ty.fv]; tauto))
            (lb'.of_fv (by simp [Ty.fv]; tauto)) h
          exact ⟨w, x, fun g hg => by simp only [sem, (s g hg).1, (s g hg).2]⟩
        | _ => simp at h
      | con c ts =>
        cases B with
        | var w => exact symm (linkVar_ok hS lb' (ub w (by simp [Ty.fv])) sa la' ua h)
        | con d us =>
          simp only at h
          split at h
          · next e =>
            obtain ⟨w, x, s⟩ := ih S S' ts us h hS la' lb'
            exact ⟨w, x, fun g hg => by simp only [sem, s g hg, e]⟩
          · simp at h
        | _ => simp at h
      | nil =>
        cases B with
        | var w => exact symm (linkVar_ok hS lb' (ub w (by simp [Ty.fv])) sa la' ua h)
        | nil =>
          simp only [Except.ok.injEq] at h
          rw [← h]
          exact ⟨hS, .refl S, fun _ _ => rfl⟩
        | _ => simp at h
      | cons a1 a2 =>
        cases B with
        | var w => exact symm (linkVar_ok hS lb' (ub w (by simp [Ty.fv])) sa la' ua h)
        | cons b1 b2 =>
          obtain ⟨w, x, s⟩ := two a1 a2 b1 b2 (la'.of_fv (by simp [Ty.fv]; tauto))
            (la'.of_fv (by simp [Ty.fv]; tauto)) (lb'.of_fv (by simp [Ty.fv]; tauto))
            (lb'.of_fv (by simp [Ty.fv]; tauto)) h
          exact ⟨w, x, fun g hg => by simp only [sem, (s g hg).1, (s g hg).2]⟩
        | _ => simp at h
      | rcd r =>
        cases B with
        | var w => exact symm (linkVar_ok hS lb' (ub w (by simp [Ty.fv])) sa la' ua h)
        | rcd q =>
          obtain ⟨w, x, s⟩ := unifyRec_ok ih _ S _ _ _ _ S' h hS
            (fun p hp => la'.of_fv fun v hv => fields_fv (r := r) hp hv)
            (la'.of_fv fun v hv => rend_fv (r := r) hv)
            (fun p hp => lb'.of_fv fun v hv => fields_fv (r := q) hp hv)
            (lb'.of_fv fun v hv => rend_fv (r := q) hv) (fields_ord sa) (fields_ord sb)
          refine ⟨w, x, fun g hg => ?_⟩
          simp only [sem, Prod.mk.injEq, GTy.rcd.injEq, and_true]
          funext l
          rw [← rowSem_row, ← rowSem_row, s g hg l]
        | _ => simp at h
      | field l t r =>
        cases B with
        | var w => exact symm (linkVar_ok hS lb' (ub w (by simp [Ty.fv])) sa la' ua h)
        | _ => simp at h
    refine ⟨key.1, key.2.1, fun g hg => ?_⟩
    have hg0 := key.2.1.sol g hg
    rw [← sem_app hg0 a, ← sem_app hg0 b]
    exact key.2.2 g hg

end Mosml.Typing
