import Verif.Pretty.Spec
import Verif.Util

/-!
# Sequences of pending tokens
-/

namespace Mosml.Pretty

open Mosml.Num (Str)

/-- The size is not known yet. -/
def unres : Tok → Bool
  | .S _ => false
  | .BB _ U => !U.isEmpty
  | .E _ u => u != 0
  | .BR d _ _ => decide (d < 0)

/-- The effect on the number of open blocks, of all tokens and of those not known yet. -/
def actTok : Tok → Nat → Nat
  | .BB P U, d => d + (P.length + U.length)
  | .E p u, d => d - (p + u)
  | _, d => d

def actUTok : Tok → Nat → Nat
  | .BB _ U, d => d + U.length
  | .E _ u, d => d - u
  | _, d => d

def actA : List Tok → Nat → Nat
  | [], d => d
  | t :: y, d => actA y (actTok t d)

def actU : List Tok → Nat → Nat
  | [], d => d
  | t :: y, d => actU y (actUTok t d)

theorem actA_append (x y : List Tok) (d : Nat) : actA (x ++ y) d = actA y (actA x d) := by
  induction x generalizing d with
  | nil => rfl
  | cons t x ih => exact ih _

theorem actU_append (x y : List Tok) (d : Nat) : actU (x ++ y) d = actU y (actU x d) := by
  induction x generalizing d with
  | nil => rfl
  | cons t x ih => exact ih _

/-- The calls that the tokens stand for. -/
def opsTok : Tok → List Op
  | .S s => [.str s]
  | .BB P U => (U.reverse ++ P).map (fun b => .bgn b.cons b.off)
  | .E p u => List.replicate (p + u) .fin
  | .BR _ n o => [.brk n o]

def opsOf (p : List Tok) : List Op := p.flatMap opsTok

/-- The calls with the sizes that they will have; `D` is how much follows. -/
def finU (rs : Int) : (Nat → Int) → List Blk → List ROp
  | _, [] => []
  | D, b :: U => finU rs (fun d => D (d + 1)) U ++ [.bgn (rs + b.size + D 1) b.cons b.off]

def finP (P : List Blk) : List ROp := P.map (fun b => .bgn b.size b.cons b.off)

def finTok (rs : Int) (D : Nat → Int) : Tok → List ROp
  | .S s => [.str s]
  | .BB P U => finU rs (fun d => D (d + P.length)) U ++ finP P
  | .E p u => List.replicate (p + u) .fin
  | .BR d n o => [.brk (if d < 0 then rs + d + D 0 else d) n o]

def fin (rs : Int) (D : Nat → Int) : List Tok → List ROp
  | [] => []
  | t :: y => finTok rs (fun d => D (actA y d)) t ++ fin rs D y

theorem fin_append (rs : Int) (D : Nat → Int) (x y : List Tok) :
    fin rs D (x ++ y) = fin rs (fun d => D (actA y d)) x ++ fin rs D y := by
  induction x with
  | nil => rfl
  | cons t x ih =>
    simp only [List.cons_append, fin, ih, actA_append, List.append_assoc]

/-- How much the tokens print. -/
def wd (p : List Tok) : Int := (p.map width).sum

theorem wd_cons (t : Tok) (p : List Tok) : wd (t :: p) = width t + wd p := by simp [wd]
theorem wd_append (x y : List Tok) : wd (x ++ y) = wd x + wd y := by simp [wd]

/-- Well-formed tokens. -/
def wf : Tok → Prop
  | .S _ => True
  | .BB P U => 0 < P.length + U.length ∧ ∀ b ∈ P, 0 ≤ b.size
  | .E p u => 0 < p + u ∧ (p = 0 ∨ u = 0)
  | .BR _ n _ => 0 ≤ n

theorem width_nonneg {t : Tok} (h : wf t) : 0 ≤ width t := by
  cases t <;> simp_all [width, wf]

theorem wd_nonneg {p : List Tok} (h : ∀ t ∈ p, wf t) : 0 ≤ wd p := by
  induction p with
  | nil => simp [wd]
  | cons t p ih =>
    rw [wd_cons]
    have := ih (fun t ht => h t (List.mem_cons_of_mem _ ht))
    have := width_nonneg (h t (by simp))
    omega

/-- A token not known yet has as size the position, negated. -/
def posTok (l : Int) : Tok → Prop
  | .BB _ U => ∀ b ∈ U, b.size = -l
  | .BR d _ _ => d = -l ∨ 0 ≤ d
  | _ => True

def pos : Int → List Tok → Prop
  | _, [] => True
  | l, t :: y => posTok l t ∧ pos (l + width t) y

theorem pos_append (l : Int) (x y : List Tok) : pos l (x ++ y) ↔ pos l x ∧ pos (l + wd x) y := by
  induction x generalizing l with
  | nil => simp [pos, wd]
  | cons t x ih => simp only [List.cons_append, pos, ih, wd_cons, and_assoc, add_assoc]

/-- Blocks known within a token come after those not known. -/
def pcount : Tok → Nat
  | .BB P _ => P.length
  | _ => 0

/-- What is known already does not matter for what is not: the tokens from the last to the
first, `c` and `cu` are the effects of what follows. -/
def Ag : (Nat → Nat) → (Nat → Nat) → List Tok → Prop
  | _, _, [] => True
  | c, cu, t :: r =>
      (unres t = true → ∀ d, c (d + pcount t) = cu d) ∧
        Ag (fun d => c (actTok t d)) (fun d => cu (actUTok t d)) r

theorem Ag_comp (g : Nat → Nat) : ∀ (r : List Tok) (c cu : Nat → Nat), Ag c cu r →
    Ag (fun d => g (c d)) (fun d => g (cu d)) r
  | [], _, _, _ => trivial
  | _ :: r, _, _, h => ⟨fun hu d => congrArg g (h.1 hu d), Ag_comp g r _ _ h.2⟩

theorem Ag_prefix : ∀ (r q : List Tok) (c cu : Nat → Nat), Ag c cu (r ++ q) → Ag c cu r
  | [], _, _, _, _ => trivial
  | _ :: r, q, _, _, h => ⟨h.1, Ag_prefix r q _ _ h.2⟩

def isBB : Tok → Bool
  | .BB _ _ => true
  | _ => false

def isE : Tok → Bool
  | .E _ _ => true
  | _ => false

def isBR : Tok → Bool
  | .BR _ _ _ => true
  | _ => false

/-- Before a break that is not known yet, the last token that is not known is a BB. -/
def GG : Bool → List Tok → Prop
  | _, [] => True
  | ok, t :: y =>
      (unres t = true → isBR t = true → ok = true) ∧ GG (if unres t then isBB t else ok) y

def lastOk : Bool → List Tok → Bool
  | ok, [] => ok
  | ok, t :: y => lastOk (if unres t then isBB t else ok) y

theorem GG_append (ok : Bool) (x y : List Tok) :
    GG ok (x ++ y) ↔ GG ok x ∧ GG (lastOk ok x) y := by
  induction x generalizing ok with
  | nil => simp [GG, lastOk]
  | cons t x ih => simp only [List.cons_append, GG, ih, lastOk, and_assoc]

theorem lastOk_append (ok : Bool) (x y : List Tok) :
    lastOk ok (x ++ y) = lastOk (lastOk ok x) y := by
  induction x generalizing ok with
  | nil => rfl
  | cons t x ih => exact ih _

theorem GG_mono {p : List Tok} (h : GG false p) : GG true p := by
  induction p with
  | nil => trivial
  | cons t p ih =>
    refine ⟨fun _ _ => rfl, ?_⟩
    have := h.2
    cases hu : unres t with
    | true => rw [hu] at this; exact this
    | false => rw [hu] at this; exact ih this

/-- The last token has not been touched. -/
def LastOK (p : List Tok) : Prop :=
  ∀ t, p.getLast? = some t → (isBB t = true → pcount t = 0 ∧ unres t = true) ∧
    (isE t = true → unres t = true)

/-! ## What check does -/

def bbRes (rs : Int) : Nat → List Blk → List Blk → List Blk × List Blk × Nat
  | k, P, [] => (P, [], k)
  | 0, P, b :: U => (P, b :: U, 0)
  | k + 1, P, b :: U => bbRes rs k ({ b with size := rs + b.size } :: P) U

def chkR (rs : Int) : Nat → List Tok → List Tok
  | _, [] => []
  | k, .BB P U :: r =>
      let q := bbRes rs k P U
      .BB q.1 q.2.1 :: (if q.2.1 = [] then chkR rs q.2.2 r else r)
  | k, .E p u :: r => if u = 0 then .E p u :: chkR rs k r
      else .E (p + u) 0 :: chkR rs (k + (p + u)) r
  | k, .BR d n o :: r => (if d < 0 then .BR (rs + d) n o else .BR d n o) :: chkR rs k r
  | k, .S s :: r => .S s :: chkR rs k r

/-- If the last token not known is a BB, then nothing is done. -/
theorem chkR_zero (rs : Int) : ∀ (r : List Tok), lastOk true r.reverse = true →
    chkR rs 0 r = r
  | [], _ => rfl
  | t :: r, h => by
      rw [List.reverse_cons, lastOk_append] at h
      simp only [lastOk] at h
      cases t with
      | S s =>
        simp only [unres, Bool.false_eq_true, if_false] at h
        rw [chkR, chkR_zero rs r h]
      | BR d n o =>
        by_cases hd : d < 0
        · simp [unres, hd, isBB] at h
        · simp only [unres, hd, decide_false, Bool.false_eq_true, if_false] at h
          rw [chkR, chkR_zero rs r h, if_neg hd]
      | E p u =>
        by_cases hu : u = 0
        · simp only [unres, hu, bne_self_eq_false, Bool.false_eq_true, if_false] at h
          rw [chkR, if_pos hu, chkR_zero rs r h]
        · simp [unres, hu, isBB] at h
      | BB P U =>
        cases U with
        | nil =>
          simp only [unres, List.isEmpty_nil, Bool.not_true, Bool.false_eq_true, if_false] at h
          rw [chkR, bbRes, if_pos rfl, chkR_zero rs r h]
        | cons b U =>
          rw [chkR, bbRes, if_neg (by simp)]

theorem bbRes_facts (rs : Int) : ∀ (k : Nat) (P U : List Blk),
    let q := bbRes rs k P U
    q.1.length + q.2.1.length = P.length + U.length ∧
    q.2.1.map (fun b => (b.cons, b.off)) = (U.map (fun b => (b.cons, b.off))).drop (U.length - q.2.1.length) ∧
    (q.2.1.reverse ++ q.1).map (fun b => (b.cons, b.off)) =
      (U.reverse ++ P).map (fun b => (b.cons, b.off)) ∧
    (∀ b ∈ q.2.1, b ∈ U) ∧
    (∀ b ∈ q.1, b ∈ P ∨ ∃ c ∈ U, b.size = rs + c.size) ∧
    (q.2.1 ≠ [] → q.2.2 = 0 ∧ q.1.length = P.length + k ∧ k < U.length) ∧
    (q.2.1 = [] → k = U.length + q.2.2)
  | k, P, [] => by simp [bbRes]
  | 0, P, b :: U => by
      simp [bbRes]
      exact fun c hc => Or.inl hc
  | k + 1, P, b :: U => by
      obtain ⟨h1, h2, h3, h4, h5, h6, h7⟩ := bbRes_facts rs k ({ b with size := rs + b.size } :: P) U
      simp only [bbRes]
      refine ⟨?_, ?_, ?_, ?_, ?_, ?_, ?_⟩
      · rw [h1]; simp; omega
      · rw [h2]
        have : (b :: U).length - (bbRes rs k ({ b with size := rs + b.size } :: P) U).2.1.length =
            (U.length - (bbRes rs k ({ b with size := rs + b.size } :: P) U).2.1.length) + 1 := by
          have : (bbRes rs k ({ b with size := rs + b.size } :: P) U).2.1.length ≤ U.length := by
            have := congrArg List.length h2
            simp at this
            omega
          simp; omega
        rw [this]; rfl
      · rw [h3]; simp
      · intro c hc; exact List.mem_cons_of_mem _ (h4 c hc)
      · intro c hc
        rcases h5 c hc with h | ⟨e, he, hs⟩
        · rw [List.mem_cons] at h
          rcases h with rfl | h
          · exact Or.inr ⟨b, by simp, rfl⟩
          · exact Or.inl h
        · exact Or.inr ⟨e, List.mem_cons_of_mem _ he, hs⟩
      · intro hne
        obtain ⟨a1, a2, a3⟩ := h6 hne
        refine ⟨a1, ?_, ?_⟩
        · rw [a2]; simp; omega
        · simp; omega
      · intro he
        have := h7 he
        simp; omega

/-- Sizes of blocks: what follows counts from the break on. -/
theorem finU_far (rs n : Int) (U : List Blk) : ∀ (D0 D1 : Nat → Int),
    (∀ d, D0 (d + 1) = n + D1 (d + 1)) → finU rs D0 U = finU (rs + n) D1 U := by
  induction U with
  | nil => intros; rfl
  | cons b U ih =>
    intro D0 D1 h
    simp only [finU]
    rw [ih (fun d => D0 (d + 1)) (fun d => D1 (d + 1)) (fun d => h _), h 0]
    congr 3
    simp; omega

theorem fin_far (rs n : Int) (D0 D1 : Nat → Int) : ∀ (p : List Tok),
    (∀ d, D0 d = n + D1 d) → fin rs D0 p = fin (rs + n) D1 p
  | [], _ => rfl
  | t :: p, h => by
      rw [fin, fin, fin_far rs n D0 D1 p h]
      congr 1
      cases t with
      | S s => rfl
      | E p u => rfl
      | BR d m o =>
        simp only [finTok, h]
        congr 2
        split
        · omega
        · rfl
      | BB P U =>
        simp only [finTok]
        rw [finU_far rs n U _ (fun d => D1 (actA p (d + P.length))) (fun d => h _)]

theorem bbRes_fin (rs n : Int) (D0 D1 : Nat → Int) (hD : ∀ d, D0 d = if d = 0 then 0 else n + D1 d) :
    ∀ (k : Nat) (P U : List Blk) (c : Nat → Nat), (∀ d, c (d + P.length) = d - k) →
    finU rs (fun d => D0 (c (d + P.length))) U ++ finP P =
      let q := bbRes rs k P U
      finU (rs + n) (fun d => D1 (c (d + q.1.length))) q.2.1 ++ finP q.1
  | k, P, [], c, _ => by simp [bbRes, finU]
  | 0, P, b :: U, c, h => by
      simp only [bbRes]
      rw [finU_far rs n (b :: U) _ (fun d => D1 (c (d + P.length)))]
      intro d
      simp only [h, hD]
      rw [if_neg (by omega)]
  | k + 1, P, b :: U, c, h => by
      have hc : ∀ d, c (d + ({ b with size := rs + b.size } :: P : List Blk).length) = d - k := by
        intro d
        have := h (d + 1)
        simp only [List.length_cons]
        rw [← Nat.add_assoc, Nat.add_right_comm, this]; omega
      have := bbRes_fin rs n D0 D1 hD k ({ b with size := rs + b.size } :: P) U c hc
      simp only [bbRes, finU]
      rw [← this]
      have h1 : D0 (c (1 + P.length)) = 0 := by rw [h 1, hD, if_pos (by omega)]
      rw [h1]
      simp only [finP, List.map_cons, List.append_assoc, List.singleton_append, add_zero,
        List.length_cons]
      congr 2
      funext d
      rw [show d + 1 + P.length = d + (P.length + 1) by omega]

/-- The same token, with sizes known or not. -/
structure Same (t t' : Tok) : Prop where
  ops : opsTok t' = opsTok t
  width : width t' = width t
  act : actTok t' = actTok t
  bb : isBB t' = isBB t
  e : isE t' = isE t
  un : unres t' = true → unres t = true
  wt : weight t' = weight t

theorem Same.refl (t : Tok) : Same t t := ⟨rfl, rfl, rfl, rfl, rfl, id, rfl⟩

theorem same_refl : ∀ (r : List Tok), List.Forall₂ Same r r
  | [] => .nil
  | t :: r => .cons (Same.refl t) (same_refl r)

theorem same_wd {r r' : List Tok} (h : List.Forall₂ Same r r') : wd r' = wd r := by
  induction h with
  | nil => rfl
  | cons h _ ih => rw [wd_cons, wd_cons, h.width, ih]

theorem same_ops {r r' : List Tok} (h : List.Forall₂ Same r r') :
    opsOf r' = opsOf r := by
  induction h with
  | nil => rfl
  | cons h _ ih => simp only [opsOf, List.flatMap_cons] at ih ⊢; rw [h.ops, ih]

theorem same_reverse {r r' : List Tok} (h : List.Forall₂ Same r r') :
    List.Forall₂ Same r.reverse r'.reverse := by
  have app : ∀ {a a' b b' : List Tok}, List.Forall₂ Same a a' → List.Forall₂ Same b b' →
      List.Forall₂ Same (a ++ b) (a' ++ b') := by
    intro a a' b b' h1 h2
    induction h1 with
    | nil => exact h2
    | cons h _ ih => exact .cons h ih
  induction h with
  | nil => exact .nil
  | cons h _ ih =>
    rw [List.reverse_cons, List.reverse_cons]
    exact app ih (.cons h .nil)

theorem wd_reverse (r : List Tok) : wd r.reverse = wd r := by
  simp [wd, List.map_reverse, List.sum_reverse]

theorem same_bb (rs : Int) (k : Nat) (P U : List Blk) :
    Same (.BB P U) (.BB (bbRes rs k P U).1 (bbRes rs k P U).2.1) := by
  obtain ⟨h1, h2, h3, h4, h5, h6, h7⟩ := bbRes_facts rs k P U
  refine ⟨?_, rfl, ?_, rfl, rfl, ?_, ?_⟩
  · have := congrArg (List.map (fun p : Bool × Int => Op.bgn p.1 p.2)) h3
    simpa only [opsTok, List.map_map, Function.comp_def] using this
  · funext d
    simp only [actTok, h1]
  · simp only [unres]
    cases U with
    | nil => simp [bbRes]
    | cons b U => simp
  · simp only [weight, h1]

/-- What check does: it finds the sizes of what ends at this break, and of nothing else. -/
theorem chkR_facts (rs n : Int) (D0 D1 : Nat → Int)
    (hD : ∀ d, D0 d = if d = 0 then 0 else n + D1 d) :
    ∀ (r : List Tok) (k : Nat) (c cu : Nat → Nat) (l : Int), (∀ d, cu d = d - k) → Ag c cu r →
      (∀ t ∈ r, wf t) → 1 ≤ l → pos l r.reverse → l + wd r.reverse ≤ rs → GG true r.reverse →
      fin rs (fun d => D0 (c d)) r.reverse =
        fin (rs + n) (fun d => D1 (c d)) (chkR rs k r).reverse ∧
      List.Forall₂ Same r (chkR rs k r) ∧
      Ag c (fun d => d) (chkR rs k r) ∧
      (∀ t ∈ chkR rs k r, wf t) ∧
      pos l (chkR rs k r).reverse ∧
      GG true (chkR rs k r).reverse ∧
      lastOk true (chkR rs k r).reverse = true
  | [], k, c, cu, l, _, _, _, _, _, _, _ => by
      simp [chkR, fin, Ag, pos, GG, lastOk]
  | t :: r, k, c, cu, l, hcu, hag, hwf, hl, hpos, hrs, hg => by
      have hwt := hwf t (by simp)
      have hwr : ∀ t ∈ r, wf t := fun t ht => hwf t (List.mem_cons_of_mem _ ht)
      rw [List.reverse_cons] at hpos hrs hg
      rw [pos_append] at hpos
      rw [wd_append] at hrs
      rw [GG_append] at hg
      have hw1 : wd [t] = width t := by simp [wd]
      have hwn := width_nonneg hwt
      have hwrn : 0 ≤ wd r.reverse := wd_nonneg (fun t ht => hwr t (List.mem_reverse.1 ht))
      have hpt : posTok (l + wd r.reverse) t := hpos.2.1
      -- the case that the rest is treated
      have cont : ∀ (t' : Tok) (k' : Nat), Same t t' → wf t' → posTok (l + wd r.reverse) t' →
          unres t' = false → (∀ d, cu (actUTok t d) = d - k') →
          finTok rs (fun d => D0 (c d)) t = finTok (rs + n) (fun d => D1 (c d)) t' →
          fin rs (fun d => D0 (c d)) (r.reverse ++ [t]) =
            fin (rs + n) (fun d => D1 (c d)) (t' :: chkR rs k' r).reverse ∧
          List.Forall₂ Same (t :: r) (t' :: chkR rs k' r) ∧
          Ag c (fun d => d) (t' :: chkR rs k' r) ∧
          (∀ t ∈ t' :: chkR rs k' r, wf t) ∧
          pos l (t' :: chkR rs k' r).reverse ∧
          GG true (t' :: chkR rs k' r).reverse ∧
          lastOk true (t' :: chkR rs k' r).reverse = true := by
        intro t' k' hs hwf' hp' hu' hcu' hfin
        obtain ⟨i1, i2, i3, i4, i5, i6, i7⟩ := chkR_facts rs n D0 D1 hD r k' _ _ l hcu' hag.2 hwr hl
          hpos.1 (by omega) hg.1
        have hid : (fun d => actUTok t' d) = fun d => d := by
          funext d
          cases t' with
          | S s => rfl
          | BR _ _ _ => rfl
          | BB P U => simp [unres] at hu'; simp [actUTok, hu']
          | E p u => simp [unres] at hu'; simp [actUTok, hu']
        refine ⟨?_, .cons hs i2, ?_, ?_, ?_, ?_, ?_⟩
        · rw [fin_append, List.reverse_cons, fin_append]
          simp only [actA, fin]
          rw [i1, hs.act, hfin]
        · refine ⟨by simp [hu'], ?_⟩
          rw [hid, hs.act]
          exact i3
        · intro u hu
          rw [List.mem_cons] at hu
          rcases hu with rfl | hu
          · exact hwf'
          · exact i4 u hu
        · rw [List.reverse_cons, pos_append]
          refine ⟨i5, ?_, trivial⟩
          rw [same_wd (same_reverse i2)]
          exact hp'
        · rw [List.reverse_cons, GG_append]
          exact ⟨i6, by simp [hu'], trivial⟩
        · rw [List.reverse_cons, lastOk_append, i7]
          simp [lastOk, hu']
      rw [List.reverse_cons]
      cases t with
      | S s =>
        rw [chkR]
        exact cont _ k (Same.refl _) hwt hpt rfl (fun d => hcu d) rfl
      | E p u =>
        rw [chkR]
        by_cases hu : u = 0
        · rw [if_pos hu]
          refine cont _ k (Same.refl _) hwt hpt (by simp [unres, hu]) (fun d => ?_) rfl
          simp only [actUTok, hu, Nat.sub_zero]; exact hcu d
        · rw [if_neg hu]
          have hp0 : p = 0 := by rcases hwt.2 with h | h <;> omega
          refine cont _ (k + (p + u)) ⟨rfl, rfl, ?_, rfl, rfl, ?_, rfl⟩ ?_ trivial rfl ?_ rfl
          · funext d; simp [actTok]
          · simp [unres]
          · exact ⟨by omega, Or.inr rfl⟩
          · intro d; rw [actUTok, hcu]; omega
      | BR d m o =>
        rw [chkR]
        by_cases hd : d < 0
        · rw [if_pos hd]
          have hdl : d = -(l + wd r.reverse) := by
            rcases hpt with h | h
            · exact h
            · omega
          have hge : 0 ≤ rs + d := by omega
          refine cont _ k ⟨rfl, rfl, rfl, rfl, rfl, ?_, rfl⟩ hwt (Or.inr hge) ?_ (fun d => hcu d) ?_
          · intro _; simp [unres, hd]
          · simp [unres]; omega
          · simp only [finTok]
            rw [if_pos hd, if_neg (by omega)]
            have h0 := hag.1 (by simp [unres, hd]) 0
            simp only [pcount] at h0
            rw [Nat.add_zero] at h0
            rw [h0, hcu, hD, if_pos (by omega)]
            simp
        · rw [if_neg hd]
          refine cont _ k (Same.refl _) hwt hpt (by simp [unres, hd]) (fun d => hcu d) ?_
          simp only [finTok]
          rw [if_neg hd, if_neg hd]
      | BB P U =>
        obtain ⟨h1, h2, h3, h4, h5, h6, h7⟩ := bbRes_facts rs k P U
        have hwf' : wf (.BB (bbRes rs k P U).1 (bbRes rs k P U).2.1) := by
          refine ⟨by have := hwt.1; omega, ?_⟩
          intro b hb
          rcases h5 b hb with h | ⟨e, he, hs⟩
          · exact hwt.2 b h
          · have := hpt e he
            rw [hw1] at hrs
            simp only [width] at hrs
            omega
        have hp' : posTok (l + wd r.reverse) (.BB (bbRes rs k P U).1 (bbRes rs k P U).2.1) :=
          fun b hb => hpt b (h4 b hb)
        rw [chkR]
        by_cases hq : (bbRes rs k P U).2.1 = []
        · simp only [if_pos hq]
          refine cont _ _ (same_bb rs k P U) hwf' hp' (by simp [unres, hq]) ?_ ?_
          · intro d
            have h7' : k = U.length + (bbRes rs k P U).2.2 := h7 hq
            rw [actUTok, hcu]; omega
          · simp only [finTok]
            cases hU : U with
            | nil => simp [bbRes, finU]
            | cons b U' =>
              rw [← hU]
              have hun : unres (.BB P U) = true := by simp [unres, hU]
              exact bbRes_fin rs n D0 D1 hD k P U c (fun d => by rw [← hcu]; exact hag.1 hun d)
        · simp only [if_neg hq]
          obtain ⟨a1, a2, a3⟩ := h6 hq
          have hne : U ≠ [] := by intro h; rw [h] at a3; simp at a3
          have hun : unres (.BB P U) = true := by simp [unres, hne]
          have hc : ∀ d, c (d + P.length) = d - k := fun d => by rw [← hcu]; exact hag.1 hun d
          have hact : actTok (.BB (bbRes rs k P U).1 (bbRes rs k P U).2.1) = actTok (.BB P U) :=
            (same_bb rs k P U).act
          refine ⟨?_, .cons (same_bb rs k P U) (same_refl r), ⟨?_, ?_⟩, ?_, ?_, ?_, ?_⟩
          · rw [fin_append, List.reverse_cons, fin_append]
            simp only [actA, fin, finTok, List.append_nil]
            rw [bbRes_fin rs n D0 D1 hD k P U c hc, hact]
            congr 1
            refine fin_far rs n _ _ _ (fun d => ?_)
            have : c (actTok (.BB P U) d) = d + U.length - k := by
              rw [← hc]; simp only [actTok]; congr 1; omega
            rw [this, hD, if_neg (by omega)]
          · intro _ d
            simp only [pcount]
            rw [a2, show d + (P.length + k) = (d + k) + P.length by omega, hc]; omega
          · have := hag.2
            rw [hact]
            have e : (fun d => cu (actUTok (.BB P U) d)) =
                fun d => actUTok (.BB (bbRes rs k P U).1 (bbRes rs k P U).2.1) d := by
              funext d
              have h1' : (bbRes rs k P U).1.length + (bbRes rs k P U).2.1.length =
                P.length + U.length := h1
              have a2' : (bbRes rs k P U).1.length = P.length + k := a2
              simp only [actUTok, hcu]; omega
            rw [e] at this
            exact this
          · intro u hu
            rw [List.mem_cons] at hu
            rcases hu with rfl | hu
            · exact hwf'
            · exact hwr u hu
          · rw [List.reverse_cons, pos_append]
            exact ⟨hpos.1, hp', trivial⟩
          · rw [List.reverse_cons, GG_append]
            exact ⟨hg.1, by simp [isBR], trivial⟩
          · rw [List.reverse_cons, lastOk_append]
            simp [lastOk, unres, hq, isBB]

end Mosml.Pretty
