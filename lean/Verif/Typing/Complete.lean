import Verif.Typing.Infer

/-!
# Unification finds solutions

For programs without `...` all rows end in `nil`, so that no row variables occur.
-/

namespace Mosml.Typing

/-- The first label of a row is above `l`. -/
def HeadLt (l : Nat) : Ty → Prop
  | .field l' _ _ => l < l'
  | _ => True

/-- Types and chains (`false`) or rows (`true`) without row variables, fields strictly in
order. -/
def Cl : Ty → Bool → Prop
  | .var _, b => b = false
  | .arrow s t, b => b = false ∧ Cl s false ∧ Cl t false
  | .con _ ts, b => b = false ∧ Cl ts false
  | .rcd r, b => b = false ∧ Cl r true
  | .nil, _ => True
  | .cons t ts, b => b = false ∧ Cl t false ∧ Cl ts false
  | .field l t r, b => b = true ∧ Cl t false ∧ Cl r true ∧ HeadLt l r

theorem HeadLt.ins {l : Nat} {t r : Ty} (h : HeadLt l r) : ins l t r = .field l t r := by
  cases r with
  | field l' t' r =>
    simp only [HeadLt] at h
    simp only [Typing.ins]
    rw [if_pos (by omega)]
  | _ => rfl

theorem subst_cl {f : Nat → Ty} (hf : ∀ v, Cl (f v) false) : ∀ (t : Ty) (b : Bool), Cl t b →
    Cl (t.subst f) b ∧ (b = true → ∀ l, HeadLt l t → HeadLt l (t.subst f))
  | .var v, b, h => by
    simp only [Cl] at h
    subst h
    exact ⟨hf v, by simp⟩
  | .arrow s t, b, h => by
    obtain ⟨rfl, h1, h2⟩ := h
    exact ⟨⟨rfl, (subst_cl hf s _ h1).1, (subst_cl hf t _ h2).1⟩, by simp⟩
  | .con c ts, b, h => by
    obtain ⟨rfl, h1⟩ := h
    exact ⟨⟨rfl, (subst_cl hf ts _ h1).1⟩, by simp⟩
  | .rcd r, b, h => by
    obtain ⟨rfl, h1⟩ := h
    exact ⟨⟨rfl, (subst_cl hf r _ h1).1⟩, by simp⟩
  | .nil, b, _ => ⟨trivial, fun _ _ _ => trivial⟩
  | .cons s t, b, h => by
    obtain ⟨rfl, h1, h2⟩ := h
    exact ⟨⟨rfl, (subst_cl hf s _ h1).1, (subst_cl hf t _ h2).1⟩, by simp⟩
  | .field l t r, b, h => by
    obtain ⟨rfl, h1, h2, h3⟩ := h
    have ht := (subst_cl hf t _ h1).1
    obtain ⟨hr, hh⟩ := subst_cl hf r _ h2
    have := hh rfl l h3
    simp only [Ty.subst]
    rw [this.ins]
    exact ⟨⟨rfl, ht, hr, this⟩, fun _ _ h => h⟩

theorem HeadLt.le {l : Nat} {r : Ty} (h : HeadLt l r) : HeadLe l r := by
  cases r <;> simp_all [HeadLt, HeadLe] <;> omega

theorem Cl.srt : ∀ {t : Ty} {b : Bool}, Cl t b → Srt t
  | .var _, _, _ => trivial
  | .arrow s t, b, h => ⟨Cl.srt h.2.1, Cl.srt h.2.2⟩
  | .con c ts, b, h => Cl.srt (t := ts) h.2
  | .rcd r, b, h => Cl.srt (t := r) h.2
  | .nil, b, _ => trivial
  | .cons s t, b, h => ⟨Cl.srt h.2.1, Cl.srt h.2.2⟩
  | .field l t r, b, h => ⟨Cl.srt h.2.1, Cl.srt h.2.2.1, h.2.2.2.le⟩

/-- Assignments of types to variables. -/
abbrev Asg := Nat → GTy

def gm (G : Asg) : Gam := fun v => (G v, noRow)

/-- The meaning of a type. -/
def tm (G : Asg) (t : Ty) : GTy := (sem (gm G) t).1

/-- The meaning of a row. -/
def rm (G : Asg) (r : Ty) : Row := (sem (gm G) r).2

theorem sem_gm {G : Asg} : ∀ {t : Ty}, Cl t false → sem (gm G) t = (tm G t, noRow)
  | .var _, _ => rfl
  | .arrow _ _, _ => rfl
  | .con _ _, _ => rfl
  | .rcd _, _ => rfl
  | .nil, _ => rfl
  | .cons _ _, _ => rfl
  | .field _ _ _, h => by simp [Cl] at h

theorem tm_congr {G G' : Asg} {t : Ty} (h : ∀ v ∈ t.fv, G v = G' v) : tm G t = tm G' t := by
  simp only [tm]
  rw [sem_congr]
  intro v hv
  simp [gm, h v hv]

theorem tm_subst {G : Asg} {f : Nat → Ty} (hf : ∀ v, Cl (f v) false) (t : Ty) :
    tm G (t.subst f) = tm (fun v => tm G (f v)) t := by
  simp only [tm, sem_subst]
  congr 2
  funext v
  rw [sem_gm (hf v)]
  rfl

/-- Equal meanings under two assignments: the assignments agree on the variables. -/
theorem tm_inj {G G' : Asg} : ∀ (t : Ty) (b : Bool), Cl t b →
    (b = false → tm G t = tm G' t) → (b = true → ∀ l, rm G t l = rm G' t l) →
    ∀ v ∈ t.fv, G v = G' v
  | .var w, b, h, h1, _, v, hv => by
    simp only [Ty.fv, List.mem_singleton] at hv
    subst hv
    exact h1 h
  | .arrow s t, b, h, h1, _, v, hv => by
    obtain ⟨rfl, hs, ht⟩ := h
    have e := h1 rfl
    simp only [tm, sem, GTy.arrow.injEq] at e
    simp only [Ty.fv, List.mem_append] at hv
    rcases hv with hv | hv
    · exact tm_inj s false hs (fun _ => e.1) (by simp) v hv
    · exact tm_inj t false ht (fun _ => e.2) (by simp) v hv
  | .con c ts, b, h, h1, _, v, hv => by
    obtain ⟨rfl, hs⟩ := h
    have e := h1 rfl
    simp only [tm, sem, GTy.con.injEq, true_and] at e
    exact tm_inj ts false hs (fun _ => e) (by simp) v hv
  | .rcd r, b, h, h1, _, v, hv => by
    obtain ⟨rfl, hs⟩ := h
    have e := h1 rfl
    simp only [tm, sem, GTy.rcd.injEq] at e
    exact tm_inj r true hs (by simp) (fun _ l => congrFun e l) v hv
  | .nil, b, h, h1, _, v, hv => by simp [Ty.fv] at hv
  | .cons s t, b, h, h1, _, v, hv => by
    obtain ⟨rfl, hs, ht⟩ := h
    have e := h1 rfl
    simp only [tm, sem, GTy.cons.injEq] at e
    simp only [Ty.fv, List.mem_append] at hv
    rcases hv with hv | hv
    · exact tm_inj s false hs (fun _ => e.1) (by simp) v hv
    · exact tm_inj t false ht (fun _ => e.2) (by simp) v hv
  | .field l t r, b, h, _, h2, v, hv => by
    obtain ⟨rfl, ht, hr, hl⟩ := h
    have e := h2 rfl
    simp only [Ty.fv, List.mem_append] at hv
    rcases hv with hv | hv
    · refine tm_inj t false ht (fun _ => ?_) (by simp) v hv
      have := e l
      simpa [rm, sem, tm] using this
    · refine tm_inj r true hr (by simp) (fun _ x => ?_) v hv
      have := e x
      simp only [rm, sem] at this
      by_cases hx : x = l
      · subst hx
        rw [row_none hr hl, row_none hr hl]
      · simpa [rm, hx] using this
where
  row_none {G : Asg} {l : Nat} : ∀ {r : Ty}, Cl r true → HeadLt l r → rm G r l = none
    | .nil, _, _ => rfl
    | .field l' t r, h, hl => by
      obtain ⟨-, -, hr, hl'⟩ := h
      simp only [HeadLt] at hl
      simp only [rm, sem]
      rw [if_neg (by omega)]
      refine row_none (r := r) hr ?_
      cases r <;> simp_all [HeadLt] <;> omega
    | .var _, h, _ => by simp [Cl] at h
    | .arrow _ _, h, _ => by simp [Cl] at h
    | .con _ _, h, _ => by simp [Cl] at h
    | .rcd _, h, _ => by simp [Cl] at h
    | .cons _ _, h, _ => by simp [Cl] at h

/-! ## Parts of types -/

/-- Immediate parts. -/
inductive Imm : GTy → GTy → Prop
  | arrow1 (a b) : Imm a (.arrow a b)
  | arrow2 (a b) : Imm b (.arrow a b)
  | con (c a) : Imm a (.con c a)
  | rcd (f l a) : f l = some a → Imm a (.rcd f)
  | cons1 (a b) : Imm a (.cons a b)
  | cons2 (a b) : Imm b (.cons a b)

theorem imm_acc (T : GTy) : Acc Imm T := by
  refine GTy.rec (motive_1 := Acc Imm) (motive_2 := fun o => ∀ a, o = some a → Acc Imm a)
    ?_ ?_ ?_ ?_ ?_ ?_ ?_ T
  · intro a b iha ihb
    constructor
    intro x h
    cases h with
    | arrow1 => exact iha
    | arrow2 => exact ihb
  · intro c a ih
    constructor
    intro x h
    cases h
    exact ih
  · intro f ih
    constructor
    intro x h
    cases h with
    | rcd _ l _ h => exact ih l x h
  · constructor
    intro x h
    cases h
  · intro a b iha ihb
    constructor
    intro x h
    cases h with
    | cons1 => exact iha
    | cons2 => exact ihb
  · intro a h
    simp at h
  · intro a ih b h
    obtain rfl := Option.some.inj h
    exact ih

/-- Proper parts. -/
inductive Part : GTy → GTy → Prop
  | imm {a b} : Imm a b → Part a b
  | step {a b c} : Part a b → Imm b c → Part a c

theorem part_irrefl {T : GTy} : ¬ Part T T := by
  suffices ∀ T, Acc Imm T → ∀ a, Part a T → ∀ b, a = b → b = T → False from
    fun h => this T (imm_acc T) T h T rfl rfl
  intro T hT
  induction hT with
  | intro T _ ih =>
    rintro a h b rfl rfl
    cases h with
    | imm h => exact ih _ h _ (.imm h) _ rfl rfl
    | step h h' =>
      -- `a` is a proper part of `b`, an immediate part of `a`
      refine ih _ h' _ ?_ _ rfl rfl
      clear ih
      exact part_irrefl.trans' h' h
where
  trans' {a b : GTy} (h : Imm b a) (h' : Part a b) : Part b b := by
    have : ∀ {x y}, Part x y → ∀ z, Imm z x → Part z y := by
      intro x y h
      induction h with
      | imm h => exact fun z hz => .step (.imm hz) h
      | step h h' ih => exact fun z hz => .step (ih z hz) h'
    exact this h' _ h

/-- A variable inside a type is a proper part of it. -/
theorem part_fv {G : Asg} {v : Nat} : ∀ (t : Ty) (b : Bool), Cl t b → v ∈ t.fv →
    (b = false → t = .var v ∨ Part (G v) (tm G t)) ∧
    (b = true → ∃ l a, rm G t l = some a ∧ (a = G v ∨ Part (G v) a))
  | .var w, b, h, hv => by
    simp only [Ty.fv, List.mem_singleton] at hv
    simp only [Cl] at h
    subst h hv
    exact ⟨fun _ => .inl rfl, by simp⟩
  | .arrow s t, b, h, hv => by
    obtain ⟨rfl, hs, ht⟩ := h
    simp only [Ty.fv, List.mem_append] at hv
    refine ⟨fun _ => .inr ?_, by simp⟩
    rcases hv with hv | hv
    · rcases (part_fv s false hs hv).1 rfl with rfl | h
      · exact .imm (.arrow1 _ _)
      · exact .step h (.arrow1 _ _)
    · rcases (part_fv t false ht hv).1 rfl with rfl | h
      · exact .imm (.arrow2 _ _)
      · exact .step h (.arrow2 _ _)
  | .con c ts, b, h, hv => by
    obtain ⟨rfl, hs⟩ := h
    refine ⟨fun _ => .inr ?_, by simp⟩
    rcases (part_fv ts false hs hv).1 rfl with rfl | h
    · exact .imm (.con _ _)
    · exact .step h (.con _ _)
  | .rcd r, b, h, hv => by
    obtain ⟨rfl, hs⟩ := h
    refine ⟨fun _ => .inr ?_, by simp⟩
    obtain ⟨l, a, h, rfl | h'⟩ := (part_fv r true hs hv).2 rfl
    · exact .imm (.rcd _ l _ h)
    · exact .step h' (.rcd _ l _ h)
  | .nil, b, h, hv => by simp [Ty.fv] at hv
  | .cons s t, b, h, hv => by
    obtain ⟨rfl, hs, ht⟩ := h
    simp only [Ty.fv, List.mem_append] at hv
    refine ⟨fun _ => .inr ?_, by simp⟩
    rcases hv with hv | hv
    · rcases (part_fv s false hs hv).1 rfl with rfl | h
      · exact .imm (.cons1 _ _)
      · exact .step h (.cons1 _ _)
    · rcases (part_fv t false ht hv).1 rfl with rfl | h
      · exact .imm (.cons2 _ _)
      · exact .step h (.cons2 _ _)
  | .field l t r, b, h, hv => by
    obtain ⟨rfl, ht, hr, hl⟩ := h
    simp only [Ty.fv, List.mem_append] at hv
    refine ⟨by simp, fun _ => ?_⟩
    rcases hv with hv | hv
    · refine ⟨l, tm G t, by simp [rm, sem, tm], ?_⟩
      rcases (part_fv t false ht hv).1 rfl with rfl | h
      · exact .inl rfl
      · exact .inr h
    · obtain ⟨x, a, h, h'⟩ := (part_fv r true hr hv).2 rfl
      refine ⟨x, a, ?_, h'⟩
      have : x ≠ l := by
        rintro rfl
        rw [tm_inj.row_none hr hl] at h
        simp at h
      simp only [rm, sem]
      rw [if_neg this]
      exact h

theorem occurs {G : Asg} {v : Nat} {t : Ty} (h : Cl t false) (hn : t ≠ .var v)
    (e : G v = tm G t) : v ∉ t.fv := by
  intro hv
  rcases (part_fv (G := G) t false h hv).1 rfl with h | h
  · exact hn h
  · rw [← e] at h
    exact part_irrefl h

/-! ## States -/

structure Cx (S : St) : Prop where
  wf : WF S
  cl : ∀ v, Cl (S.img v) false
  bd : ∀ v, v < S.tv.length → ∀ w ∈ (S.img v).fv, w < S.tv.length
  row : ∀ v, S.isRow v = false

/-- Solutions. -/
def SolG (S : St) (G : Asg) : Prop := ∀ v, G v = tm G (S.img v)

theorem SolG.sol {S : St} (hS : Cx S) {G : Asg} (h : SolG S G) : Sol S (gm G) := by
  intro v
  rw [sem_gm (hS.cl v), ← h v]
  rfl

theorem tm_app {S : St} {G : Asg} (hS : Cx S) (h : SolG S G) (t : Ty) : tm G (S.app t) = tm G t := by
  simp only [tm]
  rw [sem_app (h.sol hS)]

theorem Cx.app {S : St} (hS : Cx S) {t : Ty} (ht : Cl t false) : Cl (S.app t) false :=
  (subst_cl hS.cl t false ht).1

/-- The variables of a type exist. -/
def Bnd (S : St) (t : Ty) : Prop := ∀ v ∈ t.fv, v < S.tv.length

theorem Cx.app_bnd {S : St} (hS : Cx S) {t : Ty} (ht : Bnd S t) : Bnd S (S.app t) := by
  intro w hw
  rw [St.app, mem_fv_subst] at hw
  obtain ⟨v, hv, hw⟩ := hw
  exact hS.bd v (ht v hv) w hw

/-- The variables of level at most `m` are determined by those of the earlier state. -/
def Det (S S' : St) (m : Nat) : Prop :=
  ∀ G G', SolG S' G → SolG S' G' →
    (∀ v, v < S.tv.length → S.img v = .var v → S.lvl v ≤ m → G v = G' v) →
    ∀ w, w < S'.tv.length → S'.img w = .var w → S'.lvl w ≤ m → G w = G' w

/-- A later state with more links, in which levels up to `n` are determined. -/
structure Later (n : Nat) (S S' : St) : Prop where
  cx : Cx S'
  len : S.tv.length ≤ S'.tv.length
  back : ∀ G, SolG S' G → SolG S G
  det : ∀ m, m < n → Det S S' m
  dots : S'.dots = S.dots

theorem Later.refl {n : Nat} {S : St} (h : Cx S) : Later n S S :=
  ⟨h, Nat.le_refl _, fun _ h => h, fun _ _ _ _ _ _ h w hw hi hl => h w hw hi hl, rfl⟩

theorem Later.trans {n : Nat} {S S' S'' : St} (h : Later n S S') (h' : Later n S' S'') :
    Later n S S'' where
  cx := h'.cx
  len := Nat.le_trans h.len h'.len
  back G hG := h.back G (h'.back G hG)
  det m hm G G' hG hG' hv := h'.det m hm G G' hG hG'
    (h.det m hm G G' (h'.back G hG) (h'.back G' hG') hv)
  dots := h'.dots.trans h.dots

theorem Later.mono {n n' : Nat} {S S' : St} (h : Later n S S') (hn : n' ≤ n) : Later n' S S' :=
  { h with det := fun m hm => h.det m (by omega) }

theorem lvl_link (S : St) (v : Nat) (t : Ty) (w : Nat) :
    (S.link v t).lvl w = if w ∈ t.fv ∧ S.lvl v < S.lvl w then S.lvl v else S.lvl w := by
  rw [St.link, lvl_bind, lvl_prune]

theorem isRow_link (S : St) (v : Nat) (t : Ty) (w : Nat) : (S.link v t).isRow w = S.isRow w := by
  simp only [St.isRow, St.link, St.bind, St.prune, List.getElem?_map, List.getElem?_mapIdx]
  cases S.tv[w]? with
  | none => rfl
  | some e => simp only [Option.map_some]; split <;> rfl

theorem sub1_cl {v : Nat} {t : Ty} (ht : Cl t false) (x : Nat) : Cl (sub1 v t x) false := by
  simp only [sub1]
  split
  · exact ht
  · rfl

theorem link_later {S : St} (hS : Cx S) {v : Nat} {t : Ty} {G : Asg} (hG : SolG S G)
    (hv : v < S.tv.length) (hi : S.img v = .var v) (ht : Cl t false)
    (hf : ∀ w ∈ t.fv, w < S.tv.length ∧ S.img w = .var w) (hn : t ≠ .var v) (he : G v = tm G t)
    (n : Nat) : linkVar S v t = .ok (S.link v t) ∧ Later n S (S.link v t) ∧ SolG (S.link v t) G := by
  have ho := occurs ht hn he
  obtain ⟨w1, -, -⟩ := link_ok hS.wf hv hi ht.srt hf ho
  have sub : ∀ G' : Asg, G' v = tm G' t → (fun x => tm G' (sub1 v t x)) = G' := by
    intro G' h
    funext x
    simp only [sub1]
    split
    · next e => rw [e, h]
    · rfl
  have lv : ∀ G', SolG (S.link v t) G' → G' v = tm G' t := by
    intro G' h
    have := h v
    rw [img_link S hv, hi] at this
    simpa [Ty.subst, sub1] using this
  have back : ∀ G', SolG (S.link v t) G' → SolG S G' := by
    intro G' h w
    have := h w
    rwa [img_link S hv, tm_subst (sub1_cl ht), sub G' (lv G' h)] at this
  refine ⟨by rw [linkVar, if_neg ho], ⟨⟨w1, ?_, ?_, ?_⟩, by rw [len_link], back, ?_, rfl⟩, ?_⟩
  · intro w
    rw [img_link S hv]
    exact (subst_cl (sub1_cl ht) _ _ (hS.cl w)).1
  · intro w hw x hx
    rw [len_link] at hw ⊢
    rw [img_link S hv, mem_fv_subst] at hx
    obtain ⟨y, hy, hx⟩ := hx
    rw [mem_sub1] at hx
    rcases hx with ⟨-, hx⟩ | ⟨-, rfl⟩
    · exact (hf x hx).1
    · exact hS.bd w hw x hy
  · intro w
    rw [isRow_link]
    exact hS.row w
  · intro m _ G1 G2 h1 h2 ha w hw hiw hl
    rw [len_link] at hw
    have hr : S.img w = .var w := by
      rw [img_link S hv] at hiw
      cases hq : S.img w with
      | var x =>
        have hx : S.img x = .var x := hS.wf.idem w x (by simp [hq, Ty.fv])
        rw [hq] at hiw
        simp only [Ty.subst, sub1] at hiw
        split at hiw
        · next e =>
          have : w ∈ t.fv := by rw [hiw]; simp [Ty.fv]
          rw [(hf w this).2] at hq
          exact hq.symm
        · rw [hiw]
      | field l a b => have := hS.cl w; rw [hq] at this; simp [Cl] at this
      | _ => rw [hq] at hiw; simp [Ty.subst] at hiw
    rw [lvl_link] at hl
    split at hl
    · next hc =>
      have e := ha v hv hi hl
      rw [lv G1 h1, lv G2 h2] at e
      exact tm_inj t false ht (fun _ => e) (by simp) w hc.1
    · exact ha w hw hr hl
  · intro w
    rw [img_link S hv, tm_subst (sub1_cl ht), sub G he]
    exact hG w

/-! ## Unification -/

theorem Cl.rend : ∀ {r : Ty}, Cl r true → r.rend = .nil
  | .nil, _ => rfl
  | .field l t r, h => Cl.rend (r := r) h.2.2.1
  | .var _, h => by simp [Cl] at h
  | .arrow _ _, h => by simp [Cl] at h
  | .con _ _, h => by simp [Cl] at h
  | .rcd _, h => by simp [Cl] at h
  | .cons _ _, h => by simp [Cl] at h

/-- Unification succeeds, with the solution `G` kept. -/
def UOk (n : Nat) (S : St) (G : Asg) (a b : Ty) : Prop :=
  ∃ S', (∃ k0, ∀ k, k0 ≤ k → unify k S a b = .ok S') ∧ Later n S S' ∧ SolG S' G

theorem Bnd.later {n : Nat} {S S' : St} (h : Later n S S') {t : Ty} (ht : Bnd S t) : Bnd S' t :=
  fun v hv => Nat.lt_of_lt_of_le (ht v hv) h.len

theorem rm_head {G : Asg} {l : Nat} {t r : Ty} : rm G (.field l t r) l = some (tm G t) := by
  simp [rm, sem, tm]

theorem unifyRec_all (n : Nat) (G : Asg) : ∀ (r q : Ty) (S : St), Cx S → SolG S G → Cl r true →
    Cl q true → Bnd S r → Bnd S q → (∀ l, rm G r l = rm G q l) →
    (∀ (S : St) (a b : Ty), Cx S → SolG S G → Cl a false → Cl b false → Bnd S a → Bnd S b →
      tm G a = tm G b → (∃ l, rm G r l = some (tm G a)) → UOk n S G a b) →
    ∃ S', (∃ k0, ∀ k, k0 ≤ k → ∀ N, r.fields.length + q.fields.length ≤ N →
      unifyRec (unify k) N S r.fields .nil q.fields .nil = .ok S') ∧ Later n S S' ∧ SolG S' G
  | .nil, q, S, hS, hG, hr, hq, br, bq, he, ih => by
    cases q with
    | nil =>
      refine ⟨S, ⟨0, fun k _ N _ => ?_⟩, .refl hS, hG⟩
      cases N <;> rfl
    | field l t q =>
      have := he l
      rw [rm_head] at this
      simp [rm, sem, noRow] at this
    | _ => simp [Cl] at hq
  | .field l t r, q, S, hS, hG, hr, hq, br, bq, he, ih => by
    cases q with
    | nil =>
      have := he l
      rw [rm_head] at this
      simp [rm, sem, noRow] at this
    | field l' t' q =>
      obtain ⟨-, ht, hr', hl⟩ := hr
      obtain ⟨-, ht', hq', hl'⟩ := hq
      have low : ∀ {l l' : Nat} {t t' r q : Ty}, Cl t false → Cl r true → HeadLt l r →
          (∀ x, rm G (.field l t r) x = rm G (.field l' t' q) x) → ¬ l' < l := by
        intro l l' t t' r q ht hr hl he h
        have := he l'
        rw [rm_head] at this
        have h2 : rm G (.field l t r) l' = none :=
          tm_inj.row_none (r := .field l t r) ⟨rfl, ht, hr, hl⟩ h
        rw [h2] at this
        simp at this
      have e1 := low ht hr' hl he
      have e2 := low ht' hq' hl' fun x => (he x).symm
      obtain rfl : l = l' := by omega
      have et : tm G t = tm G t' := by
        have := he l
        rw [rm_head, rm_head] at this
        exact Option.some.inj this
      obtain ⟨S1, ⟨k1, h1⟩, L1, G1⟩ := ih S t t' hS hG ht ht' (fun v hv => br v (by simp [Ty.fv, hv]))
        (fun v hv => bq v (by simp [Ty.fv, hv])) et ⟨l, rm_head⟩
      have her : ∀ x, rm G r x = rm G q x := by
        intro x
        by_cases hx : x = l
        · subst hx
          rw [tm_inj.row_none hr' hl, tm_inj.row_none hq' hl']
        · have := he x
          simp only [rm, sem, if_neg hx] at this
          exact this
      obtain ⟨S2, ⟨k2, h2⟩, L2, G2⟩ := unifyRec_all n G r q S1 L1.cx G1 hr' hq'
        (Bnd.later L1 fun v hv => br v (by simp [Ty.fv, hv]))
        (Bnd.later L1 fun v hv => bq v (by simp [Ty.fv, hv])) her (by
          intro S a b hS hG ha hb ba bb e hl'
          obtain ⟨x, hx⟩ := hl'
          refine ih S a b hS hG ha hb ba bb e ⟨x, ?_⟩
          have : x ≠ l := by
            rintro rfl
            rw [tm_inj.row_none hr' hl] at hx
            simp at hx
          simp only [rm, sem, if_neg this]
          exact hx)
      refine ⟨S2, ⟨max k1 k2, fun k hk N hN => ?_⟩, L1.trans L2, G2⟩
      simp only [Ty.fields, List.length_cons] at hN ⊢
      obtain ⟨N, rfl⟩ : ∃ N', N = N' + 1 := ⟨N - 1, by omega⟩
      simp only [unifyRec, Nat.lt_irrefl, if_false]
      rw [h1 k (by omega)]
      exact h2 k (by omega) N (by omega)
    | _ => simp [Cl] at hq
  | .var _, _, _, _, _, h, _, _, _, _, _ => by simp [Cl] at h
  | .arrow _ _, _, _, _, _, h, _, _, _, _, _ => by simp [Cl] at h
  | .con _ _, _, _, _, _, h, _, _, _, _, _ => by simp [Cl] at h
  | .rcd _, _, _, _, _, h, _, _, _, _, _ => by simp [Cl] at h
  | .cons _ _, _, _, _, _, h, _, _, _, _, _ => by simp [Cl] at h

theorem unify_all (n : Nat) (G : Asg) (T : GTy) : ∀ (S : St) (a b : Ty), Cx S → SolG S G →
    Cl a false → Cl b false → Bnd S a → Bnd S b → tm G a = T → tm G b = T → UOk n S G a b := by
  induction imm_acc T with
  | intro T _ ih =>
    intro S a b hS hG ha hb ba bb ea eb
    have hu : ∀ k, unify (k + 1) S a b = unify (k + 1) S a b := fun _ => rfl
    conv at hu => enter [k, 2]; rw [unify]
    have ca := hS.app ha
    have cb := hS.app hb
    have fa : ∀ w ∈ (S.app a).fv, w < S.tv.length ∧ S.img w = .var w := fun w hw =>
      ⟨hS.app_bnd ba w hw, app_unbound hS.wf hw⟩
    have fb : ∀ w ∈ (S.app b).fv, w < S.tv.length ∧ S.img w = .var w := fun w hw =>
      ⟨hS.app_bnd bb w hw, app_unbound hS.wf hw⟩
    rw [← tm_app hS hG] at ea eb
    generalize S.app a = A at *
    generalize S.app b = B at *
    clear ha hb ba bb
    have uok : ∀ S', (∃ k0, ∀ k, k0 ≤ k → unify (k + 1) S a b = .ok S') → Later n S S' → SolG S' G →
        UOk n S G a b := by
      rintro S' ⟨k0, h⟩ hL hG'
      refine ⟨S', ⟨k0 + 1, fun k hk => ?_⟩, hL, hG'⟩
      obtain ⟨k, rfl⟩ : ∃ k', k = k' + 1 := ⟨k - 1, by omega⟩
      exact h k (by omega)
    have linkA : ∀ v, A = .var v → B ≠ .var v → (∀ k, unify (k + 1) S a b = linkVar S v B) →
        UOk n S G a b := by
      rintro v rfl hne h
      have hv := fa v (by simp [Ty.fv])
      obtain ⟨h1, h2, h3⟩ := link_later hS hG hv.1 hv.2 cb fb hne (by rw [eb, ← ea]; rfl) n
      exact uok _ ⟨0, fun k _ => by rw [h k, h1]⟩ h2 h3
    have linkB : ∀ v, B = .var v → A ≠ .var v → (∀ k, unify (k + 1) S a b = linkVar S v A) →
        UOk n S G a b := by
      rintro v rfl hne h
      have hv := fb v (by simp [Ty.fv])
      obtain ⟨h1, h2, h3⟩ := link_later hS hG hv.1 hv.2 ca fa hne (by rw [ea, ← eb]; rfl) n
      exact uok _ ⟨0, fun k _ => by rw [h k, h1]⟩ h2 h3
    have two : ∀ (a1 a2 b1 b2 : Ty), (∀ w ∈ a1.fv, w ∈ A.fv) → (∀ w ∈ a2.fv, w ∈ A.fv) →
        (∀ w ∈ b1.fv, w ∈ B.fv) → (∀ w ∈ b2.fv, w ∈ B.fv) → Cl a1 false → Cl a2 false →
        Cl b1 false → Cl b2 false → tm G a1 = tm G b1 → tm G a2 = tm G b2 → Imm (tm G a1) T →
        Imm (tm G a2) T →
        (∀ k, unify (k + 1) S a b = (unify k S a1 b1 >>= fun S => unify k S a2 b2)) →
        UOk n S G a b := by
      intro a1 a2 b1 b2 i1 i2 i3 i4 c1 c2 c3 c4 e1 e2 m1 m2 h
      obtain ⟨S1, ⟨k1, h1⟩, L1, G1⟩ := ih _ m1 S a1 b1 hS hG c1 c3
        (fun w hw => (fa w (i1 w hw)).1) (fun w hw => (fb w (i3 w hw)).1) rfl e1.symm
      obtain ⟨S2, ⟨k2, h2⟩, L2, G2⟩ := ih _ m2 S1 a2 b2 L1.cx G1 c2 c4
        (Bnd.later L1 fun w hw => (fa w (i2 w hw)).1)
        (Bnd.later L1 fun w hw => (fb w (i4 w hw)).1) rfl e2.symm
      refine uok S2 ⟨max k1 k2, fun k hk => ?_⟩ (L1.trans L2) G2
      rw [h k, h1 k (by omega)]
      exact h2 k (by omega)
    cases A with
    | field l t r => simp [Cl] at ca
    | var v =>
      by_cases hB : B = .var v
      · subst hB
        exact uok S ⟨0, fun k _ => by rw [hu]; simp⟩ (.refl hS) hG
      · cases B with
        | var w =>
          have hne : v ≠ w := fun e => hB (by rw [e])
          by_cases hl : S.lvl v ≤ S.lvl w
          · exact linkA v rfl hB fun k => by rw [hu]; simp [hne, hl]
          · exact linkB w rfl (by simpa using hne) fun k => by rw [hu]; simp [hne, hl]
        | _ => exact linkA v rfl hB fun k => by rw [hu]
    | arrow a1 a2 =>
      cases B with
      | var w => exact linkB w rfl (by simp) fun k => by rw [hu]
      | arrow b1 b2 =>
        obtain ⟨-, c1, c2⟩ := ca
        obtain ⟨-, c3, c4⟩ := cb
        have e := ea.trans eb.symm
        simp only [tm, sem, GTy.arrow.injEq] at e
        refine two a1 a2 b1 b2 ?_ ?_ ?_ ?_ c1 c2 c3 c4 e.1 e.2 (ea ▸ .arrow1 _ _)
          (ea ▸ .arrow2 _ _) fun k => by rw [hu]
        all_goals intro w hw; simp [Ty.fv, hw]
      | field l t r => simp [Cl] at cb
      | _ => have e := ea.trans eb.symm; simp [tm, sem] at e
    | cons a1 a2 =>
      cases B with
      | var w => exact linkB w rfl (by simp) fun k => by rw [hu]
      | cons b1 b2 =>
        obtain ⟨-, c1, c2⟩ := ca
        obtain ⟨-, c3, c4⟩ := cb
        have e := ea.trans eb.symm
        simp only [tm, sem, GTy.cons.injEq] at e
        refine two a1 a2 b1 b2 ?_ ?_ ?_ ?_ c1 c2 c3 c4 e.1 e.2 (ea ▸ .cons1 _ _)
          (ea ▸ .cons2 _ _) fun k => by rw [hu]
        all_goals intro w hw; simp [Ty.fv, hw]
      | field l t r => simp [Cl] at cb
      | _ => have e := ea.trans eb.symm; simp [tm, sem] at e
    | nil =>
      cases B with
      | var w => exact linkB w rfl (by simp) fun k => by rw [hu]
      | nil => exact uok S ⟨0, fun k _ => by rw [hu]⟩ (.refl hS) hG
      | field l t r => simp [Cl] at cb
      | _ => have e := ea.trans eb.symm; simp [tm, sem] at e
    | con c ts =>
      cases B with
      | var w => exact linkB w rfl (by simp) fun k => by rw [hu]
      | con d us =>
        obtain ⟨-, c1⟩ := ca
        obtain ⟨-, c2⟩ := cb
        have e := ea.trans eb.symm
        simp only [tm, sem, GTy.con.injEq] at e
        obtain ⟨rfl, e⟩ := e
        obtain ⟨S1, ⟨k1, h1⟩, L1, G1⟩ := ih (tm G ts) (ea ▸ .con _ _) S ts us hS hG c1 c2
          (fun w hw => (fa w hw).1) (fun w hw => (fb w hw).1) rfl e.symm
        exact uok S1 ⟨k1, fun k hk => by rw [hu]; simp only [if_true]; exact h1 k hk⟩ L1 G1
      | field l t r => simp [Cl] at cb
      | _ => have e := ea.trans eb.symm; simp [tm, sem] at e
    | rcd r =>
      cases B with
      | var w => exact linkB w rfl (by simp) fun k => by rw [hu]
      | rcd q =>
        obtain ⟨-, c1⟩ := ca
        obtain ⟨-, c2⟩ := cb
        have e := ea.trans eb.symm
        simp only [tm, sem, GTy.rcd.injEq] at e
        obtain ⟨S1, ⟨k1, h1⟩, L1, G1⟩ := unifyRec_all n G r q S hS hG c1 c2
          (fun w hw => (fa w hw).1) (fun w hw => (fb w hw).1) (fun l => congrFun e l) (by
            intro S a b hS hG ha hb ba bb e hl
            obtain ⟨l, hl⟩ := hl
            exact ih (tm G a) (ea ▸ .rcd _ l _ hl) S a b hS hG ha hb ba bb rfl e.symm)
        refine uok S1 ⟨k1, fun k hk => ?_⟩ L1 G1
        rw [hu]
        simp only [c1.rend, c2.rend]
        exact h1 k hk _ (Nat.le_refl _)
      | field l t r => simp [Cl] at cb
      | _ => have e := ea.trans eb.symm; simp [tm, sem] at e

end Mosml.Typing
