import Verif.Expand.Spec

/-!
# Operands of bytecode and of threaded code agree
-/

namespace Mosml.Expand

open Mosml.Emit

/-- Which format of expand.c serves for which operand of interp.c. -/
def fit : Opd → Arg → Bool
  | .u8, .u8 | .s16, .s16 | .u16, .u16 | .u16, .slot16 | .u32, .slot32 | .u32, .header
  | .s32, .s32 | .lab, .label | .table, .table => true
  | _, _ => false

def fitAll : List Opd → List Arg → Bool
  | [], [] => true
  | o :: os, a :: as => fit o a && fitAll os as
  | _, _ => false

/-- The three descriptions of opcode `b` agree. -/
def agreeAt (b : Nat) : Bool :=
  match table[b]?, operands mapCases b, operands expCases b with
  | some e, some m, some x => decide (m = x) && fitAll x e.args
  | _, _, _ => false

theorem agree_all : (List.range table.length).all agreeAt = true := by decide +kernel

theorem agree {b : Nat} {e : Entry} (h : table[b]? = some e) :
    ∃ os, operands mapCases b = some os ∧ operands expCases b = some os ∧
      fitAll os e.args = true := by
  have hb : b < table.length := by
    rw [List.getElem?_eq_some_iff] at h; exact h.1
  have h1 := List.all_eq_true.1 agree_all b (List.mem_range.2 hb)
  unfold agreeAt at h1
  rw [h] at h1
  cases hm : operands mapCases b with
  | none => rw [hm] at h1; simp at h1
  | some m =>
      cases hx : operands expCases b with
      | none => rw [hm, hx] at h1; simp at h1
      | some x =>
          rw [hm, hx] at h1
          simp only [Bool.and_eq_true, decide_eq_true_eq] at h1
          exact ⟨x, by rw [h1.1], rfl, h1.2⟩

/-- Where a target goes. -/
def tgt (real : List Int) (l : Int) : Int := real.getD l.toNat 0

/-- A target lies in the code. -/
def Inside (len : Nat) (l : Int) : Prop := 0 ≤ l ∧ l.toNat < len

theorem realaddr_eq {real : List Int} {l : Int} (h : Inside real.length l) :
    realaddr real l = some (.addr (tgt real l)) := by
  obtain ⟨h1, h2⟩ := h
  simp only [realaddr, if_pos h1, tgt, List.getD_eq_getElem?_getD, List.getElem?_eq_getElem h2,
    Option.map_some, Option.getD_some]

/-- Operands with their targets translated. -/
def Args.move (f : Int → Int) (x : Args) : Args := { x with labels := x.labels.map f }

theorem getU16_some {bs : List Nat} {n : Nat} {r : List Nat} (h : getU16 bs = some (n, r)) :
    r = bs.drop 2 ∧ 2 ≤ bs.length := by
  match bs, h with
  | b0 :: b1 :: r', h => simp [getU16] at h; simp [h.2]

theorem getU32_some {bs : List Nat} {n : Nat} {r : List Nat} (h : getU32 bs = some (n, r)) :
    r = bs.drop 4 ∧ 4 ≤ bs.length := by
  match bs, h with
  | b0 :: b1 :: b2 :: b3 :: r', h => simp [getU32] at h; simp [h.2]

theorem getS32_some {bs : List Nat} {v : Int} {r : List Nat} (h : getS32 bs = some (v, r)) :
    r = bs.drop 4 ∧ 4 ≤ bs.length := by
  unfold getS32 at h
  rw [Option.map_eq_some_iff] at h
  obtain ⟨⟨n, r'⟩, h1, h2⟩ := h
  simp only [Prod.mk.injEq] at h2
  rw [← h2.2]
  exact getU32_some h1

theorem readTable_some {orig : Nat} : ∀ {n : Nat} {bs : List Nat} {vs : List Int} {r : List Nat},
    readTable orig n bs = some (vs, r) → r = bs.drop (4 * n) ∧ 4 * n ≤ bs.length ∧ vs.length = n
  | 0, bs, vs, r, h => by
      simp only [readTable, Option.some.injEq, Prod.mk.injEq] at h
      obtain ⟨rfl, rfl⟩ := h
      simp
  | n + 1, bs, vs, r, h => by
      simp only [readTable, Option.bind_eq_some_iff, Option.map_eq_some_iff, Prod.mk.injEq] at h
      obtain ⟨⟨v, r1⟩, h1, ⟨vs', r2⟩, h2, h3, h4⟩ := h
      simp only at h2 h3 h4
      subst h4
      obtain ⟨e1, l1⟩ := getS32_some h1
      obtain ⟨e2, l2, l3⟩ := readTable_some h2
      subst e1
      rw [List.length_drop] at l2
      refine ⟨?_, by omega, by rw [← h3, List.length_cons, l3]⟩
      rw [e2, List.drop_drop]
      congr 1
      omega

theorem labels_eq {real : List Int} {orig : Nat} : ∀ {n : Nat} {bs : List Nat} {vs : List Int}
    {r : List Nat}, readTable orig n bs = some (vs, r) → (∀ l ∈ vs, Inside real.length l) →
    labels real orig n bs = some ((vs.map (tgt real)).map Word.addr)
  | 0, bs, vs, r, h, _ => by
      simp only [readTable, Option.some.injEq, Prod.mk.injEq] at h
      obtain ⟨rfl, rfl⟩ := h
      rfl
  | n + 1, bs, vs, r, h, hin => by
      simp only [readTable, Option.bind_eq_some_iff, Option.map_eq_some_iff, Prod.mk.injEq] at h
      obtain ⟨⟨v, r1⟩, h1, ⟨vs', r2⟩, h2, h3, h4⟩ := h
      simp only at h2 h3 h4
      subst h3
      simp only [labels, h1, Option.bind_some]
      rw [realaddr_eq (hin _ (List.mem_cons_self ..)),
        labels_eq h2 (fun l hl => hin l (List.mem_cons_of_mem _ hl))]
      rfl

theorem treadTable_eq (is : List Int) (rest : List Word) :
    treadTable is.length (is.map Word.addr ++ rest) = some (is, rest) := by
  induction is with
  | nil => rfl
  | cons i is ih =>
      simp only [List.length_cons, List.map_cons, List.cons_append, treadTable, ih,
        Option.map_some]

/-- What the expansion of an operand is: the same bytes are skipped by both functions,
and reading the words gives what reading the bytes gives, targets translated. -/
structure Good (real : List Int) (p : Nat) (bs : List Nat) (o : Opd) (a : Arg) (x : Args)
    (k : Nat) (r : List Nat) (w : Nat) : Prop where
  rest : r = bs.drop k
  len : k ≤ bs.length
  size : o.sizes bs = some (k, w)
  write : (∀ l ∈ x.labels, Inside real.length l) → ∃ ws, o.words real p bs = some (ws, k) ∧
    ws.length = w ∧ ∀ rest, tread (ws ++ rest) a = some (Args.move (tgt real) x, w, rest)

theorem good {real : List Int} {p : Nat} {bs : List Nat} {o : Opd} {a : Arg} {x : Args} {k : Nat}
    {r : List Nat} (hf : fit o a = true) (h : a.read p bs = some (x, k, r)) :
    ∃ w, Good real p bs o a x k r w := by
  cases a with
  | u8 =>
      cases o <;> first | (exact absurd hf (by decide)) | skip
      match bs, h with
      | b :: r', h =>
        simp only [Arg.read, Option.some.injEq, Prod.mk.injEq] at h
        obtain ⟨rfl, rfl, rfl⟩ := h
        exact ⟨1, rfl, by simp, rfl, fun _ => ⟨_, rfl, rfl, fun _ => rfl⟩⟩
  | s16 =>
      cases o <;> first | (exact absurd hf (by decide)) | skip
      simp only [Arg.read, Option.map_eq_some_iff, Prod.mk.injEq] at h
      obtain ⟨⟨n, r'⟩, h1, rfl, rfl, rfl⟩ := h
      obtain ⟨e, l⟩ := getU16_some h1
      refine ⟨1, e, l, rfl, fun _ => ⟨[.num (signed 32768 n)], ?_, rfl, fun _ => rfl⟩⟩
      simp only [Opd.words, h1, Option.map_some]
  | u16 =>
      cases o <;> first | (exact absurd hf (by decide)) | skip
      simp only [Arg.read, Option.map_eq_some_iff, Prod.mk.injEq] at h
      obtain ⟨⟨n, r'⟩, h1, rfl, rfl, rfl⟩ := h
      obtain ⟨e, l⟩ := getU16_some h1
      refine ⟨1, e, l, rfl, fun _ => ⟨[.num (n : Int)], ?_, rfl, fun _ => rfl⟩⟩
      simp only [Opd.words, h1, Option.map_some]
  | slot16 =>
      cases o <;> first | (exact absurd hf (by decide)) | skip
      simp only [Arg.read, Option.map_eq_some_iff, Prod.mk.injEq] at h
      obtain ⟨⟨n, r'⟩, h1, rfl, rfl, rfl⟩ := h
      obtain ⟨e, l⟩ := getU16_some h1
      refine ⟨1, e, l, rfl, fun _ => ⟨[.num (n : Int)], ?_, rfl, fun _ => rfl⟩⟩
      simp only [Opd.words, h1, Option.map_some]
  | s32 =>
      cases o <;> first | (exact absurd hf (by decide)) | skip
      simp only [Arg.read, Option.map_eq_some_iff, Prod.mk.injEq] at h
      obtain ⟨⟨v, r'⟩, h1, rfl, rfl, rfl⟩ := h
      obtain ⟨e, l⟩ := getS32_some h1
      refine ⟨1, e, l, rfl, fun _ => ⟨[.num v], ?_, rfl, fun _ => rfl⟩⟩
      simp only [Opd.words, h1, Option.map_some]
  | slot32 =>
      cases o <;> first | (exact absurd hf (by decide)) | skip
      simp only [Arg.read, Option.map_eq_some_iff, Prod.mk.injEq] at h
      obtain ⟨⟨n, r'⟩, h1, rfl, rfl, rfl⟩ := h
      obtain ⟨e, l⟩ := getU32_some h1
      refine ⟨1, e, l, rfl, fun _ => ⟨[.num (n : Int)], ?_, rfl, fun _ => rfl⟩⟩
      simp only [Opd.words, h1, Option.map_some]
  | header =>
      cases o <;> first | (exact absurd hf (by decide)) | skip
      simp only [Arg.read, Option.map_eq_some_iff, Prod.mk.injEq] at h
      obtain ⟨⟨n, r'⟩, h1, rfl, rfl, rfl⟩ := h
      obtain ⟨e, l⟩ := getU32_some h1
      refine ⟨1, e, l, rfl, fun _ => ⟨[.num (n : Int)], ?_, rfl, fun _ => rfl⟩⟩
      simp only [Opd.words, h1, Option.map_some]
  | label =>
      cases o <;> first | (exact absurd hf (by decide)) | skip
      simp only [Arg.read, Option.map_eq_some_iff, Prod.mk.injEq] at h
      obtain ⟨⟨v, r'⟩, h1, rfl, rfl, rfl⟩ := h
      obtain ⟨e, l⟩ := getS32_some h1
      refine ⟨1, e, l, rfl, fun hin => ⟨[.addr (tgt real (p + v))], ?_, rfl, fun _ => rfl⟩⟩
      simp only [Opd.words, h1, Option.bind_some]
      rw [realaddr_eq (hin _ (by simp))]
      rfl
  | table =>
      cases o <;> first | (exact absurd hf (by decide)) | skip
      match bs, h with
      | n :: bs', h =>
        simp only [Arg.read, Option.map_eq_some_iff, Prod.mk.injEq] at h
        obtain ⟨⟨vs, r'⟩, h1, rfl, rfl, rfl⟩ := h
        obtain ⟨e, l, l'⟩ := readTable_some h1
        refine ⟨1 + n, ?_, by simp only [List.length_cons]; omega, rfl, fun hin =>
          ⟨.num (n : Int) :: (vs.map (tgt real)).map Word.addr, ?_, by simp [l', Nat.add_comm], ?_⟩⟩
        · rw [e, Nat.add_comm, List.drop_succ_cons]
        · simp only [Opd.words, labels_eq h1 hin, Option.map_some]
        · intro rest
          have := treadTable_eq (vs.map (tgt real)) rest
          rw [List.length_map, l'] at this
          simp only [List.cons_append, tread, Int.toNat_natCast, this, Option.map_some]
          rfl

/-- The same for all operands of an instruction. -/
structure GoodAll (real : List Int) (p : Nat) (bs : List Nat) (os : List Opd) (as : List Arg)
    (x : Args) (k : Nat) (r : List Nat) (w : Nat) : Prop where
  rest : r = bs.drop k
  len : k ≤ bs.length
  size : sizes os bs = some (k, w)
  write : (∀ l ∈ x.labels, Inside real.length l) → ∃ ws, words real p os bs = some (ws, k) ∧
    ws.length = w ∧ ∀ rest, treadArgs (ws ++ rest) as = some (Args.move (tgt real) x, w, rest)

theorem goodAll {real : List Int} : ∀ {os : List Opd} {as : List Arg} {p : Nat} {bs : List Nat}
    {x : Args} {k : Nat} {r : List Nat}, fitAll os as = true → readArgs p bs as = some (x, k, r) →
    ∃ w, GoodAll real p bs os as x k r w
  | [], [], p, bs, x, k, r, _, h => by
      simp only [readArgs, Option.some.injEq, Prod.mk.injEq] at h
      obtain ⟨rfl, rfl, rfl⟩ := h
      exact ⟨0, by simp, by simp, rfl, fun _ => ⟨[], rfl, rfl, fun _ => rfl⟩⟩
  | [], _ :: _, _, _, _, _, _, hf, _ => by simp [fitAll] at hf
  | _ :: _, [], _, _, _, _, _, hf, _ => by simp [fitAll] at hf
  | o :: os, a :: as, p, bs, x, k, r, hf, h => by
      simp only [fitAll, Bool.and_eq_true] at hf
      simp only [readArgs, Option.bind_eq_some_iff, Option.map_eq_some_iff, Prod.mk.injEq] at h
      obtain ⟨⟨x1, k1, r1⟩, h1, ⟨x2, k2, r2⟩, h2, rfl, rfl, rfl⟩ := h
      simp only at h1 h2
      obtain ⟨w1, g1⟩ := good (real := real) hf.1 h1
      obtain ⟨w2, g2⟩ := goodAll (real := real) hf.2 h2
      have e1 := g1.rest
      subst e1
      have l2 := g2.len
      rw [List.length_drop] at l2
      have l1 := g1.len
      refine ⟨w1 + w2, ?_, by simp only; omega, ?_, ?_⟩
      · rw [g2.rest, List.drop_drop]
      · simp only [sizes, g1.size, Option.bind_some, g2.size, Option.map_some]
      · intro hin
        obtain ⟨ws1, a1, a2, a3⟩ := g1.write (fun l hl => hin l (List.mem_append_left _ hl))
        obtain ⟨ws2, b1, b2, b3⟩ := g2.write (fun l hl => hin l (List.mem_append_right _ hl))
        refine ⟨ws1 ++ ws2, ?_, by simp [a2, b2], ?_⟩
        · simp only [words, a1, Option.bind_some, b1, Option.map_some]
        · intro rest
          simp only [treadArgs, List.append_assoc, a3, Option.bind_some, b3, Option.map_some]
          simp only [Args.move, List.map_append]

/-! ## Actions -/

/-- The interpreter only hands targets on. -/
theorem ops_move (f : Int → Int) : ∀ e ∈ table, ∀ ns ls gs,
    e.ops ns (ls.map f) gs = (e.ops ns ls gs).map (Op.move f) := by
  unfold table
  repeat' first
    | (refine List.forall_mem_cons.2 ⟨fun _ _ _ => rfl, ?_⟩)
  intro e he; simp at he

/-- The targets read by an instruction are those of one of its actions. -/
theorem ops_labels : ∀ e ∈ table, e.args.all (fun a => a ≠ .label ∧ a ≠ .table) = true ∨
    ∀ ns ls gs, ∃ op ∈ e.ops ns ls gs, op.labels = ls := by
  unfold table
  repeat' first
    | (refine List.forall_mem_cons.2 ⟨.inl rfl, ?_⟩)
    | (refine List.forall_mem_cons.2 ⟨.inr fun _ _ _ => ⟨_, List.mem_cons_self .., rfl⟩, ?_⟩)
  intro e he; simp at he

theorem readArgs_nolabels : ∀ {as : List Arg} {p : Nat} {bs : List Nat} {x : Args} {k : Nat}
    {r : List Nat}, as.all (fun a => a ≠ .label ∧ a ≠ .table) = true →
    readArgs p bs as = some (x, k, r) → x.labels = []
  | [], p, bs, x, k, r, _, h => by
      simp only [readArgs, Option.some.injEq, Prod.mk.injEq] at h
      obtain ⟨rfl, rfl, rfl⟩ := h
      rfl
  | a :: as, p, bs, x, k, r, ha, h => by
      simp only [readArgs, Option.bind_eq_some_iff, Option.map_eq_some_iff, Prod.mk.injEq] at h
      obtain ⟨⟨x1, k1, r1⟩, h1, ⟨x2, k2, r2⟩, h2, rfl, rfl, rfl⟩ := h
      simp only [List.all_cons, Bool.and_eq_true, decide_eq_true_eq] at ha
      have e2 := readArgs_nolabels ha.2 h2
      have e1 : x1.labels = [] := by
        cases a <;> simp_all [Arg.read, Option.map_eq_some_iff]
        · match bs, h1 with
          | b :: r', h1 => simp only [Option.some.injEq, Prod.mk.injEq] at h1; rw [← h1.1]
        all_goals (obtain ⟨_, _, h, _⟩ := h1; rw [← h])
      simp only [e1, e2, List.append_nil]

end Mosml.Expand
