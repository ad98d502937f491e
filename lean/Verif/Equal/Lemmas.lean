import Verif.Equal.Spec
import Verif.Strings.Lemmas

namespace Mosml.Equal
open Mosml.Strings (Bytes)

mutual
theorem reps_det (h : Heap) : ∀ (t t' : Tree) (v : Val), Reps h v t → Reps h v t' → t = t'
  | .int n, t', v, h1, h2 => by
    simp only [Reps] at h1; subst h1
    match t', h2 with
    | .int _, h2 => simp only [Reps, Val.long.injEq] at h2; rw [h2]
    | .con _ .nil, h2 => simp [Reps] at h2
    | .con _ (.cons _ _), h2 => simp [Reps] at h2
    | .str _, h2 => simp [Reps] at h2
    | .real _, h2 => simp [Reps] at h2
    | .ident _, h2 => simp [Reps] at h2
  | .con tag .nil, t', v, h1, h2 => by
    simp only [Reps] at h1; subst h1
    match t', h2 with
    | .int _, h2 => simp [Reps] at h2
    | .con _ .nil, h2 => simp only [Reps, Val.atom.injEq] at h2; rw [h2]
    | .con _ (.cons _ _), h2 => simp [Reps] at h2
    | .str _, h2 => simp [Reps] at h2
    | .real _, h2 => simp [Reps] at h2
    | .ident _, h2 => simp [Reps] at h2
  | .con tag (.cons t ts), t', v, h1, h2 => by
    simp only [Reps] at h1
    obtain ⟨htag, a, x, xs, rfl, ha, hx, hxs⟩ := h1
    match t', h2 with
    | .int _, h2 => simp [Reps] at h2
    | .con _ .nil, h2 => simp [Reps] at h2
    | .con tag' (.cons t' ts'), h2 =>
      simp only [Reps] at h2
      obtain ⟨_, a', x', xs', e, ha', hx', hxs'⟩ := h2
      cases e
      rw [ha] at ha'
      cases ha'
      rw [reps_det h t t' x hx hx', repsL_det h ts ts' xs hxs hxs']
    | .str _, h2 =>
      simp only [Reps] at h2
      obtain ⟨a', e, ha'⟩ := h2
      cases e; rw [ha] at ha'; cases ha'
    | .real _, h2 =>
      simp only [Reps] at h2
      obtain ⟨a', e, ha'⟩ := h2
      cases e; rw [ha] at ha'; cases ha'
    | .ident _, h2 =>
      simp only [Reps] at h2
      obtain ⟨e, fs, ha'⟩ := h2
      cases e; rw [ha] at ha'; cases ha'; omega
  | .str s, t', v, h1, h2 => by
    simp only [Reps] at h1
    obtain ⟨a, rfl, ha⟩ := h1
    match t', h2 with
    | .int _, h2 => simp [Reps] at h2
    | .con _ .nil, h2 => simp [Reps] at h2
    | .con _ (.cons _ _), h2 =>
      simp only [Reps] at h2
      obtain ⟨_, a', x', xs', e, ha', hx', hxs'⟩ := h2
      cases e; rw [ha] at ha'; cases ha'
    | .str _, h2 =>
      simp only [Reps] at h2
      obtain ⟨a', e, ha'⟩ := h2
      cases e; rw [ha] at ha'; cases ha'; rfl
    | .real _, h2 =>
      simp only [Reps] at h2
      obtain ⟨a', e, ha'⟩ := h2
      cases e; rw [ha] at ha'; cases ha'
    | .ident _, h2 =>
      simp only [Reps] at h2
      obtain ⟨e, fs, ha'⟩ := h2
      cases e; rw [ha] at ha'; cases ha'
  | .real b, t', v, h1, h2 => by
    simp only [Reps] at h1
    obtain ⟨a, rfl, ha⟩ := h1
    match t', h2 with
    | .int _, h2 => simp [Reps] at h2
    | .con _ .nil, h2 => simp [Reps] at h2
    | .con _ (.cons _ _), h2 =>
      simp only [Reps] at h2
      obtain ⟨_, a', x', xs', e, ha', hx', hxs'⟩ := h2
      cases e; rw [ha] at ha'; cases ha'
    | .str _, h2 =>
      simp only [Reps] at h2
      obtain ⟨a', e, ha'⟩ := h2
      cases e; rw [ha] at ha'; cases ha'
    | .real _, h2 =>
      simp only [Reps] at h2
      obtain ⟨a', e, ha'⟩ := h2
      cases e; rw [ha] at ha'; cases ha'; rfl
    | .ident _, h2 =>
      simp only [Reps] at h2
      obtain ⟨e, fs, ha'⟩ := h2
      cases e; rw [ha] at ha'; cases ha'
  | .ident a, t', v, h1, h2 => by
    simp only [Reps] at h1
    obtain ⟨rfl, fs, ha⟩ := h1
    match t', h2 with
    | .int _, h2 => simp [Reps] at h2
    | .con _ .nil, h2 => simp [Reps] at h2
    | .con _ (.cons _ _), h2 =>
      simp only [Reps] at h2
      obtain ⟨_, a', x', xs', e, ha', hx', hxs'⟩ := h2
      cases e; rw [ha] at ha'; cases ha'; omega
    | .str _, h2 =>
      simp only [Reps] at h2
      obtain ⟨a', e, ha'⟩ := h2
      cases e; rw [ha] at ha'; cases ha'
    | .real _, h2 =>
      simp only [Reps] at h2
      obtain ⟨a', e, ha'⟩ := h2
      cases e; rw [ha] at ha'; cases ha'
    | .ident _, h2 =>
      simp only [Reps, Val.ptr.injEq] at h2
      rw [h2.1]
theorem repsL_det (h : Heap) : ∀ (ts ts' : Trees) (vs : List Val), RepsL h vs ts → RepsL h vs ts' → ts = ts'
  | .nil, ts', vs, h1, h2 => by
    simp only [RepsL] at h1; subst h1
    match ts', h2 with
    | .nil, _ => rfl
    | .cons _ _, h2 => simp [RepsL] at h2
  | .cons t ts, ts', vs, h1, h2 => by
    simp only [RepsL] at h1
    obtain ⟨x, xs, rfl, hx, hxs⟩ := h1
    match ts', h2 with
    | .nil, h2 => simp [RepsL] at h2
    | .cons t' ts', h2 =>
      simp only [RepsL] at h2
      obtain ⟨x', xs', e, hx', hxs'⟩ := h2
      cases e
      rw [reps_det h t t' x hx hx', repsL_det h ts ts' xs hxs hxs']
end

mutual
theorem treeEq_refl : ∀ t : Tree, t.All (fun b => isNaN b = false) (fun n => n < 2 ^ 31) → TreeEq t t
  | .int n, _ => .int n
  | .con tag as, h => .con tag (treesEq_refl as (by simpa only [Tree.All] using h))
  | .str s, _ => .str s
  | .real b, h => .real (by simp only [Tree.All] at h; simp [dblEq, h])
  | .ident a, _ => .ident a
theorem treesEq_refl : ∀ ts : Trees, ts.All (fun b => isNaN b = false) (fun n => n < 2 ^ 31) → TreesEq ts ts
  | .nil, _ => .nil
  | .cons t ts, h => by
    simp only [Trees.All] at h
    exact .cons (treeEq_refl t h.1) (treesEq_refl ts h.2)
end

theorem strLoop_spec (s1 : Bytes) : ∀ s2 : Bytes, s1.length = s2.length → (strLoop s1.length s1 s2 = true ↔ s1 = s2) := by
  induction s1 with
  | nil =>
    intro s2 h
    have : s2 = [] := List.eq_nil_of_length_eq_zero (by simpa using h.symm)
    subst this; simp [strLoop]
  | cons a s1 ih =>
    intro s2 h
    match s2 with
    | [] => simp at h
    | b :: s2 =>
      have := ih s2 (by simpa using h)
      by_cases hab : a = b
      · subst hab
        have e : strLoop (a :: s1).length (a :: s1) (a :: s2) = strLoop s1.length s1 s2 := if_neg (fun h => h rfl)
        rw [e, this]; simp
      · have e : strLoop (a :: s1).length (a :: s1) (b :: s2) = false := if_pos hab
        rw [e]; simp [hab]

theorem strEq_spec (s1 s2 : Bytes) (h : s1.length < 2 ^ 31) : strEq s1 s2 = true ↔ s1 = s2 := by
  unfold strEq lenInt
  rw [Mosml.Strings.intVal_small h]
  by_cases hl : s1.length = s2.length
  · rw [if_neg (fun h => h hl)]; exact strLoop_spec s1 s2 hl
  · rw [if_pos hl]
    simp only [Bool.false_eq_true, false_iff]
    rintro rfl; exact hl rfl

theorem repsL_length {h : Heap} : ∀ (ts : Trees) (vs : List Val), RepsL h vs ts → ∀ (ts' : Trees) (vs' : List Val),
    RepsL h vs' ts' → TreesEq ts ts' → vs.length = vs'.length
  | .nil, vs, h1, ts', vs', h2, he => by
    cases he
    simp only [RepsL] at h1 h2
    rw [h1, h2]
  | .cons t ts, vs, h1, ts', vs', h2, he => by
    cases he with
    | @cons _ b _ bs _ he =>
    simp only [RepsL] at h1 h2
    obtain ⟨x, xs, rfl, -, hxs⟩ := h1
    obtain ⟨x', xs', rfl, -, hxs'⟩ := h2
    simp [repsL_length ts xs hxs bs xs' hxs' he]

/-- what the answer must be -/
def Answer (p : Prop) (r : Option Res) : Prop := (p → r = some .tt) ∧ (¬p → r = some .ff)

theorem answer_no {p : Prop} {r : Option Res} (hp : ¬p) (hr : r = some .ff) : Answer p r :=
  ⟨fun h => absurd h hp, fun _ => hr⟩

theorem eqAux_same (n : Nat) (h : Heap) (v : Val) : eqAux (n + 1) h v v = some .tt := by
  rw [eqAux.eq_def]; exact if_pos rfl

theorem eqAux_ne_ptr (n : Nat) (h : Heap) (v1 v2 : Val) (hne : v1 ≠ v2)
    (hp : (∀ a, v1 ≠ .ptr a) ∨ (∀ b, v2 ≠ .ptr b)) : eqAux (n + 1) h v1 v2 = some .ff := by
  rw [eqAux.eq_def]
  dsimp only
  rw [if_neg hne]
  split
  · rcases hp with hp | hp
    · exact absurd rfl (hp _)
    · exact absurd rfl (hp _)
  · rfl

theorem eqAux_ptr (n : Nat) (h : Heap) (a b : Nat) (o1 o2 : Obj) (ha : h a = some o1) (hb : h b = some o2)
    (hne : Val.ptr a ≠ Val.ptr b) : eqAux (n + 1) h (.ptr a) (.ptr b) = eqObj (eqAux n h) o1 o2 := by
  rw [eqAux.eq_def]
  dsimp only
  rw [if_neg hne, ha, hb]

theorem eqAux_tag (n : Nat) (h : Heap) (a b : Nat) (o1 o2 : Obj) (ha : h a = some o1) (hb : h b = some o2)
    (ht : o1.tag ≠ o2.tag) (hne : Val.ptr a ≠ Val.ptr b) : eqAux (n + 1) h (.ptr a) (.ptr b) = some .ff := by
  rw [eqAux_ptr n h a b o1 o2 ha hb hne]; exact if_neg ht

/-- the object a pointer value refers to has this tag -/
theorem reps_cases {h : Heap} {v : Val} {t : Tree} (hr : Reps h v t) :
    (∃ n, v = .long n ∧ t = .int n) ∨ (∃ k, v = .atom k ∧ t = .con k .nil) ∨
    (∃ a k x xs t0 ts, v = .ptr a ∧ k < 249 ∧ h a = some (.block k (x :: xs)) ∧ Reps h x t0 ∧ RepsL h xs ts ∧
      t = .con k (.cons t0 ts)) ∨
    (∃ a s, v = .ptr a ∧ h a = some (.str s) ∧ t = .str s) ∨
    (∃ a b, v = .ptr a ∧ h a = some (.dbl b) ∧ t = .real b) ∨
    (∃ a fs, v = .ptr a ∧ h a = some (.block 250 fs) ∧ t = .ident a) := by
  match t, hr with
  | .int n, hr => left; simp only [Reps] at hr; exact ⟨n, hr, rfl⟩
  | .con k .nil, hr => right; left; simp only [Reps] at hr; exact ⟨k, hr, rfl⟩
  | .con k (.cons t0 ts), hr =>
    right; right; left
    simp only [Reps] at hr
    obtain ⟨hk, a, x, xs, rfl, ha, hx, hxs⟩ := hr
    exact ⟨a, k, x, xs, t0, ts, rfl, hk, ha, hx, hxs, rfl⟩
  | .str s, hr =>
    simp only [Reps] at hr
    obtain ⟨a, rfl, ha⟩ := hr
    right; right; right; left; exact ⟨a, s, rfl, ha, rfl⟩
  | .real b, hr =>
    simp only [Reps] at hr
    obtain ⟨a, rfl, ha⟩ := hr
    right; right; right; right; left; exact ⟨a, b, rfl, ha, rfl⟩
  | .ident a, hr =>
    simp only [Reps] at hr
    obtain ⟨rfl, fs, ha⟩ := hr
    right; right; right; right; right; exact ⟨a, fs, rfl, ha, rfl⟩

theorem height_pos (t : Tree) : 0 < t.height := by
  cases t <;> simp [Tree.height]

mutual
theorem eq_main (h : Heap) : ∀ (t1 t2 : Tree) (v1 v2 : Val) (n : Nat), Reps h v1 t1 → Reps h v2 t2 → t1.Ok →
    t1.height ≤ n → Answer (TreeEq t1 t2) (eqAux n h v1 v2)
  | t1, t2, v1, v2, 0, _, _, _, hn => absurd hn (by have := height_pos t1; omega)
  | t1, t2, v1, v2, n + 1, h1, h2, hok, hn => by
    by_cases hv : v1 = v2
    · subst hv
      have := reps_det h t1 t2 v1 h1 h2
      subst this
      refine ⟨fun _ => ?_, fun hc => absurd (treeEq_refl t1 hok) hc⟩
      exact eqAux_same n h v1
    · match t1, h1, hok, hn with
      | .int k, h1, _, _ =>
        simp only [Reps] at h1; subst h1
        refine answer_no (fun hc => ?_) (eqAux_ne_ptr n h _ _ hv (Or.inl (by simp)))
        cases hc
        simp only [Reps] at h2
        exact hv h2.symm
      | .con k .nil, h1, _, _ =>
        simp only [Reps] at h1; subst h1
        refine answer_no (fun hc => ?_) (eqAux_ne_ptr n h _ _ hv (Or.inl (by simp)))
        cases hc with
        | con _ hc =>
          cases hc
          simp only [Reps] at h2
          exact hv h2.symm
      | .con k (.cons t0 ts), h1, hok, hn =>
        simp only [Reps] at h1
        obtain ⟨hk, a, x, xs, rfl, ha, hx, hxs⟩ := h1
        rcases reps_cases h2 with ⟨m, rfl, rfl⟩ | ⟨m, rfl, rfl⟩ | ⟨b, k', y, ys, u0, us, rfl, hk', hb, hy, hys, rfl⟩ |
          ⟨b, s, rfl, hb, rfl⟩ | ⟨b, d, rfl, hb, rfl⟩ | ⟨b, fs, rfl, hb, rfl⟩
        · exact answer_no (fun hc => by cases hc) (eqAux_ne_ptr n h _ _ hv (Or.inr (by simp)))
        · exact answer_no (fun hc => by cases hc with | con _ hc => cases hc) (eqAux_ne_ptr n h _ _ hv (Or.inr (by simp)))
        · by_cases hkk : k = k'
          · subst hkk
            rw [eqAux_ptr n h a b _ _ ha hb hv]
            have eo : eqObj (eqAux n h) (.block k (x :: xs)) (.block k (y :: ys)) =
                if (x :: xs).length = (y :: ys).length then eqFields (eqAux n h) (x :: xs) (y :: ys)
                else some .ff := by
              unfold eqObj
              rw [if_pos (show (Obj.block k (x :: xs)).tag = (Obj.block k (y :: ys)).tag from rfl)]
              dsimp only
              rw [if_neg (by omega), if_neg (by omega)]
            rw [eo]
            by_cases hl : (x :: xs).length = (y :: ys).length
            · rw [if_pos hl]
              have := eqL_main h (.cons t0 ts) (.cons u0 us) (x :: xs) (y :: ys) n
                (by simp only [RepsL]; exact ⟨x, xs, rfl, hx, hxs⟩) (by simp only [RepsL]; exact ⟨y, ys, rfl, hy, hys⟩)
                (by simpa only [Tree.Ok, Tree.All] using hok) (by simp only [Tree.height] at hn; omega) (by simp) hl
              refine ⟨fun hc => this.1 ?_, fun hc => this.2 fun hc' => hc (.con k hc')⟩
              cases hc with | con _ hc => exact hc
            · rw [if_neg hl]
              refine answer_no (fun hc => hl ?_) rfl
              cases hc with
              | con _ hc =>
                exact repsL_length (.cons t0 ts) (x :: xs) (by simp only [RepsL]; exact ⟨x, xs, rfl, hx, hxs⟩)
                  (.cons u0 us) (y :: ys) (by simp only [RepsL]; exact ⟨y, ys, rfl, hy, hys⟩) hc
          · exact answer_no (fun hc => by cases hc; exact hkk rfl)
              (eqAux_tag n h a b _ _ ha hb (by simpa [Obj.tag] using hkk) hv)
        · exact answer_no (fun hc => by cases hc) (eqAux_tag n h a b _ _ ha hb (by simp only [Obj.tag]; omega) hv)
        · exact answer_no (fun hc => by cases hc) (eqAux_tag n h a b _ _ ha hb (by simp only [Obj.tag]; omega) hv)
        · exact answer_no (fun hc => by cases hc) (eqAux_tag n h a b _ _ ha hb (by simp only [Obj.tag]; omega) hv)
      | .str s, h1, hok, _ =>
        simp only [Reps] at h1
        obtain ⟨a, rfl, ha⟩ := h1
        rcases reps_cases h2 with ⟨m, rfl, rfl⟩ | ⟨m, rfl, rfl⟩ | ⟨b, k', y, ys, u0, us, rfl, hk', hb, hy, hys, rfl⟩ |
          ⟨b, s2, rfl, hb, rfl⟩ | ⟨b, d, rfl, hb, rfl⟩ | ⟨b, fs, rfl, hb, rfl⟩
        · exact answer_no (fun hc => by cases hc) (eqAux_ne_ptr n h _ _ hv (Or.inr (by simp)))
        · exact answer_no (fun hc => by cases hc) (eqAux_ne_ptr n h _ _ hv (Or.inr (by simp)))
        · exact answer_no (fun hc => by cases hc) (eqAux_tag n h a b _ _ ha hb (by simp only [Obj.tag]; omega) hv)
        · rw [eqAux_ptr n h a b _ _ ha hb hv,
            show eqObj (eqAux n h) (.str s) (.str s2) = some (if strEq s s2 then .tt else .ff) from rfl]
          have := strEq_spec s s2 (by simpa only [Tree.Ok, Tree.All] using hok)
          constructor
          · intro hc; cases hc; rw [if_pos (this.2 rfl)]
          · intro hc
            rw [if_neg (fun e => hc (by rw [this.1 e]; exact .str s2))]
        · exact answer_no (fun hc => by cases hc) (eqAux_tag n h a b _ _ ha hb (by simp only [Obj.tag]; omega) hv)
        · exact answer_no (fun hc => by cases hc) (eqAux_tag n h a b _ _ ha hb (by simp only [Obj.tag]; omega) hv)
      | .real d1, h1, _, _ =>
        simp only [Reps] at h1
        obtain ⟨a, rfl, ha⟩ := h1
        rcases reps_cases h2 with ⟨m, rfl, rfl⟩ | ⟨m, rfl, rfl⟩ | ⟨b, k', y, ys, u0, us, rfl, hk', hb, hy, hys, rfl⟩ |
          ⟨b, s2, rfl, hb, rfl⟩ | ⟨b, d, rfl, hb, rfl⟩ | ⟨b, fs, rfl, hb, rfl⟩
        · exact answer_no (fun hc => by cases hc) (eqAux_ne_ptr n h _ _ hv (Or.inr (by simp)))
        · exact answer_no (fun hc => by cases hc) (eqAux_ne_ptr n h _ _ hv (Or.inr (by simp)))
        · exact answer_no (fun hc => by cases hc) (eqAux_tag n h a b _ _ ha hb (by simp only [Obj.tag]; omega) hv)
        · exact answer_no (fun hc => by cases hc) (eqAux_tag n h a b _ _ ha hb (by simp only [Obj.tag]; omega) hv)
        · rw [eqAux_ptr n h a b _ _ ha hb hv,
            show eqObj (eqAux n h) (.dbl d1) (.dbl d) = some (if dblEq d1 d then .tt else .ff) from rfl]
          constructor
          · intro hc; cases hc with | real hc => rw [if_pos hc]
          · intro hc; rw [if_neg (fun e => hc (.real e))]
        · exact answer_no (fun hc => by cases hc) (eqAux_tag n h a b _ _ ha hb (by simp only [Obj.tag]; omega) hv)
      | .ident a, h1, _, _ =>
        simp only [Reps] at h1
        obtain ⟨rfl, gs, ha⟩ := h1
        rcases reps_cases h2 with ⟨m, rfl, rfl⟩ | ⟨m, rfl, rfl⟩ | ⟨b, k', y, ys, u0, us, rfl, hk', hb, hy, hys, rfl⟩ |
          ⟨b, s2, rfl, hb, rfl⟩ | ⟨b, d, rfl, hb, rfl⟩ | ⟨b, fs, rfl, hb, rfl⟩
        · exact answer_no (fun hc => by cases hc) (eqAux_ne_ptr n h _ _ hv (Or.inr (by simp)))
        · exact answer_no (fun hc => by cases hc) (eqAux_ne_ptr n h _ _ hv (Or.inr (by simp)))
        · exact answer_no (fun hc => by cases hc) (eqAux_tag n h a b _ _ ha hb (by simp only [Obj.tag]; omega) hv)
        · exact answer_no (fun hc => by cases hc) (eqAux_tag n h a b _ _ ha hb (by simp only [Obj.tag]; omega) hv)
        · exact answer_no (fun hc => by cases hc) (eqAux_tag n h a b _ _ ha hb (by simp only [Obj.tag]; omega) hv)
        · refine answer_no (fun hc => by cases hc; exact hv rfl) ?_
          rw [eqAux_ptr n h a b _ _ ha hb hv]
          rfl
theorem eqL_main (h : Heap) : ∀ (ts us : Trees) (xs ys : List Val) (n : Nat), RepsL h xs ts → RepsL h ys us →
    ts.All (fun b => isNaN b = false) (fun n => n < 2 ^ 31) → ts.height ≤ n → xs ≠ [] → xs.length = ys.length →
    Answer (TreesEq ts us) (eqFields (eqAux n h) xs ys)
  | .nil, _, xs, _, _, h1, _, _, _, hne, _ => by simp only [RepsL] at h1; exact absurd h1 hne
  | .cons t ts, us, xs, ys, n, h1, h2, hok, hn, hne, hl => by
    simp only [RepsL] at h1
    obtain ⟨x, xs, rfl, hx, hxs⟩ := h1
    simp only [Trees.All] at hok
    simp only [Trees.height] at hn
    match us, h2 with
    | .nil, h2 =>
      simp only [RepsL] at h2; subst h2; simp at hl
    | .cons u us, h2 =>
      simp only [RepsL] at h2
      obtain ⟨y, ys, rfl, hy, hys⟩ := h2
      have head := eq_main h t u x y n hx hy hok.1 (by omega)
      match xs, ys, hl with
      | [], [], _ =>
        have e1 : ts = .nil := by cases ts <;> simp_all [RepsL]
        have e2 : us = .nil := by cases us <;> simp_all [RepsL]
        subst e1; subst e2
        rw [eqFields]
        exact ⟨fun hc => head.1 (by cases hc; assumption), fun hc => head.2 fun hc' => hc (.cons hc' .nil)⟩
      | x2 :: xs, y2 :: ys, hl =>
        have rest := eqL_main h ts us (x2 :: xs) (y2 :: ys) n hxs hys hok.2 (by omega) (by simp)
          (by simpa using hl)
        rw [eqFields]
        · by_cases hh : TreeEq t u
          · rw [head.1 hh]
            exact ⟨fun hc => rest.1 (by cases hc; assumption), fun hc => rest.2 fun hc' => hc (.cons hh hc')⟩
          · rw [head.2 hh]
            exact ⟨fun hc => absurd (by cases hc; assumption) hh, fun _ => rfl⟩
        · simp
end

mutual
theorem treeEq_symm : ∀ {a b : Tree}, TreeEq a b → TreeEq b a
  | _, _, .int n => .int n
  | _, _, .con t h => .con t (treesEq_symm h)
  | _, _, .str s => .str s
  | _, _, .real h => .real (by
      unfold dblEq at *
      simp only [Bool.and_eq_true, Bool.or_eq_true, beq_iff_eq, Bool.not_eq_true'] at *
      exact ⟨⟨h.1.2, h.1.1⟩, by omega⟩)
  | _, _, .ident a => .ident a
theorem treesEq_symm : ∀ {a b : Trees}, TreesEq a b → TreesEq b a
  | _, _, .nil => .nil
  | _, _, .cons h1 h2 => .cons (treeEq_symm h1) (treesEq_symm h2)
end

mutual
theorem treeEq_trans : ∀ {a b c : Tree}, TreeEq a b → TreeEq b c → TreeEq a c
  | _, _, _, .int n, h => h
  | _, _, _, .con t h, .con _ h' => .con t (treesEq_trans h h')
  | _, _, _, .str s, h => h
  | _, _, _, .real h, .real h' => .real (by
      unfold dblEq at *
      simp only [Bool.and_eq_true, Bool.or_eq_true, beq_iff_eq, Bool.not_eq_true'] at *
      obtain ⟨⟨h1, h2⟩, h3⟩ := h
      obtain ⟨⟨h4, h5⟩, h6⟩ := h'
      refine ⟨⟨h1, h5⟩, ?_⟩
      rcases h3 with rfl | h3 <;> rcases h6 with rfl | h6 <;> omega)
  | _, _, _, .ident a, h => h
theorem treesEq_trans : ∀ {a b c : Trees}, TreesEq a b → TreesEq b c → TreesEq a c
  | _, _, _, .nil, h => h
  | _, _, _, .cons h1 h2, .cons h1' h2' => .cons (treeEq_trans h1 h1') (treesEq_trans h2 h2')
end

end Mosml.Equal
