import Verif.Emit.Layout
import Verif.Emit.Decode
import Mathlib.Data.List.Forall2

/-!
# Reading back what one clause of the emitter wrote
-/

namespace Mosml.Emit

/-- What a step relies on: a label is defined within reach, a slot number has been
filled in that fits its field and denotes what the instruction refers to. -/
def Call.Good (D : Nat → Option Nat) (S : Nat → Nat) (RG : Nat → Glob → Prop) (p : Nat) :
    Call → Prop
  | .label back l => back ≤ p ∧ ∃ d, D l = some d ∧
      -2147483648 ≤ (d : Int) - ((p - back : Nat) : Int) ∧
      (d : Int) - ((p - back : Nat) : Int) < 2147483648
  | .slotLit c => S p < 4294967296 ∧ RG (S p) (.lit c)
  | .slotGet u => S p < 4294967296 ∧ RG (S p) (.get u)
  | .slotSet u => S p < 4294967296 ∧ RG (S p) (.set u)
  | .slotPrim f => S p < 65536 ∧ RG (S p) (.cprim f)
  | _ => True

def GoodAt (D : Nat → Option Nat) (S : Nat → Nat) (RG : Nat → Glob → Prop) :
    Nat → List Call → Prop
  | _, [] => True
  | p, c :: cs => c.Good D S RG p ∧ GoodAt D S RG (p + c.size) cs

theorem goodAt_append {D S RG} {a b : List Call} {p : Nat} :
    GoodAt D S RG p (a ++ b) ↔ GoodAt D S RG p a ∧ GoodAt D S RG (p + sizeOf a) b := by
  induction a generalizing p with
  | nil => simp [GoodAt, sizeOf]
  | cons c a ih => simp only [List.cons_append, GoodAt, ih, sizeOf, Nat.add_assoc, and_assoc]

/-- A decoded target is the position of the label. -/
def RL (D : Nat → Option Nat) (t : Int) (l : Nat) : Prop := ∃ d, D l = some d ∧ t = (d : Int)

/-- Decoded actions correspond to the prescribed ones. -/
abbrev AgreeAll (D : Nat → Option Nat) (RG : Nat → Glob → Prop) (raws : List Raw)
    (ops : List (Op Nat Glob)) : Prop :=
  List.Forall₂ (Op.Agrees (RL D) RG) raws ops

/-- The steps `cs` decode to the actions `ops`, wherever they are placed. -/
def Chunk (cs : List Call) (ops : List (Op Nat Glob)) : Prop :=
  ∀ D S RG p rest, GoodAt D S RG p cs →
    ∃ raws, Decodes p (render D S p cs ++ rest) raws (p + sizeOf cs) rest ∧
      AgreeAll D RG raws ops

theorem Decodes.trans {p q r bs cs ds xs ys} (h : Decodes p bs xs q cs)
    (h' : Decodes q cs ys r ds) : Decodes p bs (xs ++ ys) r ds := by
  induction h with
  | nil => exact h'
  | step h1 _ ih => rw [List.append_assoc]; exact .step h1 (ih h')

theorem chunk_nil : Chunk [] [] := by
  intro D S RG p rest _
  exact ⟨[], .nil _ _, .nil⟩

theorem chunk_define (l : Nat) : Chunk [.define l] [] := by
  intro D S RG p rest _
  exact ⟨[], .nil _ _, .nil⟩

theorem Chunk.append {a b : List Call} {x y : List (Op Nat Glob)} (ha : Chunk a x)
    (hb : Chunk b y) : Chunk (a ++ b) (x ++ y) := by
  intro D S RG p rest hg
  rw [goodAt_append] at hg
  obtain ⟨r1, d1, f1⟩ := ha D S RG p (render D S (p + sizeOf a) b ++ rest) hg.1
  obtain ⟨r2, d2, f2⟩ := hb D S RG (p + sizeOf a) rest hg.2
  refine ⟨r1 ++ r2, ?_, List.rel_append f1 f2⟩
  rw [render_append, List.append_assoc, sizeOf_append, ← Nat.add_assoc]
  exact d1.trans d2

/-! ## Operands -/

/-- The steps `as` are read back as the operands `args`. -/
def Reads (as : List Call) (args : List Arg) (ns : List Int) (ls : List Nat)
    (gs : List Glob) : Prop :=
  ∀ D S RG p rest, GoodAt D S RG p as →
    ∃ ts ss, readArgs p (render D S p as ++ rest) args =
        some (⟨ns, ts, ss⟩, sizeOf as, rest) ∧
      List.Forall₂ (RL D) ts ls ∧ List.Forall₂ RG ss gs

theorem reads_nil : Reads [] [] [] [] [] := by
  intro D S RG p rest _
  exact ⟨[], [], rfl, .nil, .nil⟩

/-- One operand, made of the steps `as`. -/
def Reads1 (as : List Call) (arg : Arg) (ns : List Int) (ls : List Nat)
    (gs : List Glob) : Prop :=
  ∀ D S RG p rest, GoodAt D S RG p as →
    ∃ ts ss, arg.read p (render D S p as ++ rest) = some (⟨ns, ts, ss⟩, sizeOf as, rest) ∧
      List.Forall₂ (RL D) ts ls ∧ List.Forall₂ RG ss gs

theorem Reads1.cons {as bs arg args ns ns' ls ls' gs gs'} (h : Reads1 as arg ns ls gs)
    (h' : Reads bs args ns' ls' gs') :
    Reads (as ++ bs) (arg :: args) (ns ++ ns') (ls ++ ls') (gs ++ gs') := by
  intro D S RG p rest hg
  rw [goodAt_append] at hg
  obtain ⟨t1, s1, e1, f1, g1⟩ := h D S RG p (render D S (p + sizeOf as) bs ++ rest) hg.1
  obtain ⟨t2, s2, e2, f2, g2⟩ := h' D S RG (p + sizeOf as) rest hg.2
  refine ⟨t1 ++ t2, s1 ++ s2, ?_, List.rel_append f1 f2, List.rel_append g1 g2⟩
  rw [render_append, List.append_assoc]
  simp only [readArgs, e1, Option.bind_some, e2, Option.map_some, sizeOf_append]

theorem Reads1.reads {as arg ns ls gs} (h : Reads1 as arg ns ls gs) :
    Reads as [arg] ns ls gs := by
  have := h.cons reads_nil
  simpa only [List.append_nil] using this

theorem byteOf_small {v : Int} (h0 : 0 ≤ v) (h1 : v < 256) : ((byteOf v : Nat) : Int) = v := by
  unfold byteOf; omega

theorem byteOf_nat (n : Nat) (h : n < 256) : byteOf (n : Int) = n := by
  unfold byteOf; omega

theorem reads_u8 {v : Int} (h0 : 0 ≤ v) (h1 : v < 256) : Reads1 [.out v] .u8 [v] [] [] := by
  intro D S RG p rest _
  refine ⟨[], [], ?_, .nil, .nil⟩
  simp only [render, Call.bytes, List.append_nil, List.cons_append, List.nil_append, Arg.read,
    byteOf_small h0 h1]
  rfl

theorem u16_bytes2 (v : Int) (rest : List Nat) (h0 : 0 ≤ v) (h1 : v < 65536) :
    getU16 (bytes2 v ++ rest) = some (v.toNat, rest) := by
  simp only [bytes2, List.cons_append, List.nil_append, getU16]
  have : byteOf v + 256 * byteOf (v / 256) = v.toNat := by unfold byteOf; omega
  rw [this]

theorem reads_u16 {v : Int} (h0 : 0 ≤ v) (h1 : v < 65536) :
    Reads1 [.short v] .u16 [v] [] [] := by
  intro D S RG p rest _
  refine ⟨[], [], ?_, .nil, .nil⟩
  simp only [render, Call.bytes, List.append_nil, Arg.read, u16_bytes2 v rest h0 h1,
    Option.map_some, Int.toNat_of_nonneg h0]
  rfl

theorem s16_bytes2 (v : Int) (rest : List Nat) (h0 : -32768 ≤ v) (h1 : v < 32768) :
    ∃ n, getU16 (bytes2 v ++ rest) = some (n, rest) ∧ signed 32768 n = v := by
  simp only [bytes2, List.cons_append, List.nil_append, getU16]
  refine ⟨_, rfl, ?_⟩
  unfold signed byteOf
  split <;> omega

theorem reads_s16 {v : Int} (h0 : -32768 ≤ v) (h1 : v < 32768) :
    Reads1 [.short v] .s16 [v] [] [] := by
  intro D S RG p rest _
  refine ⟨[], [], ?_, .nil, .nil⟩
  obtain ⟨n, e, hs⟩ := s16_bytes2 v rest h0 h1
  simp only [render, Call.bytes, List.append_nil, Arg.read, e, Option.map_some, hs]
  rfl

theorem u32_bytes4 (v : Int) (rest : List Nat) (h0 : 0 ≤ v) (h1 : v < 4294967296) :
    getU32 (bytes4 v ++ rest) = some (v.toNat, rest) := by
  simp only [bytes4, List.cons_append, List.nil_append, getU32]
  have : byteOf v + 256 * byteOf (v / 256) + 65536 * byteOf (v / 65536) +
      16777216 * byteOf (v / 16777216) = v.toNat := by
    unfold byteOf; omega
  rw [this]

theorem s32_bytes4 (v : Int) (rest : List Nat) (h0 : -2147483648 ≤ v) (h1 : v < 2147483648) :
    getS32 (bytes4 v ++ rest) = some (v, rest) := by
  unfold getS32
  simp only [bytes4, List.cons_append, List.nil_append, getU32, Option.map_some]
  have : signed 2147483648 ((byteOf v + 256 * byteOf (v / 256) + 65536 * byteOf (v / 65536) +
      16777216 * byteOf (v / 16777216) : Nat) : Int) = v := by
    unfold signed byteOf
    split <;> omega
  rw [this]

theorem reads_s32 {v : Int} (h0 : -2147483648 ≤ v) (h1 : v < 2147483648) :
    Reads1 [.long v] .s32 [v] [] [] := by
  intro D S RG p rest _
  refine ⟨[], [], ?_, .nil, .nil⟩
  simp only [render, Call.bytes, List.append_nil, Arg.read, s32_bytes4 v rest h0 h1,
    Option.map_some]
  rfl

theorem label_bytes {D S RG p back l} (rest : List Nat)
    (h : (Call.label back l).Good D S RG p) :
    ∃ d : Nat, D l = some d ∧
      getS32 ((Call.label back l).bytes D S p ++ rest) =
        some ((d : Int) - ((p - back : Nat) : Int), rest) := by
  obtain ⟨_, d, hd, h0, h1⟩ := h
  refine ⟨d, hd, ?_⟩
  simp only [Call.bytes, hd]
  exact s32_bytes4 _ _ h0 h1

theorem reads_label (l : Nat) : Reads1 [.label 0 l] .label [] [l] [] := by
  intro D S RG p rest hg
  obtain ⟨d, hd, e⟩ := label_bytes rest hg.1
  refine ⟨[(d : Int)], [], ?_, .cons ⟨d, hd, rfl⟩ .nil, .nil⟩
  simp only [render, List.append_nil, Arg.read, e, Option.map_some, Nat.sub_zero]
  have : (p : Int) + ((d : Int) - (p : Int)) = d := by omega
  rw [this]; rfl

/-- A step that leaves room for a slot number of 32 bits. -/
inductive Slot32 : Call → Glob → Prop where
  | lit (c) : Slot32 (.slotLit c) (.lit c)
  | get (u) : Slot32 (.slotGet u) (.get u)
  | set (u) : Slot32 (.slotSet u) (.set u)

theorem reads_slot32 {c : Call} {g : Glob} (h : Slot32 c g) : Reads1 [c] .slot32 [] [] [g] := by
  intro D S RG p rest hg
  have key : c.bytes D S p = bytes4 (S p) ∧ c.size = 4 ∧ S p < 4294967296 ∧ RG (S p) g := by
    cases h <;> exact ⟨rfl, rfl, hg.1.1, hg.1.2⟩
  obtain ⟨k1, k2, k3, k4⟩ := key
  refine ⟨[], [S p], ?_, .nil, .cons k4 .nil⟩
  simp only [render, List.append_nil, Arg.read, k1,
    u32_bytes4 (S p) rest (by omega) (by omega), Option.map_some, Int.toNat_natCast]
  simp only [sizeOf, k2]

theorem reads_slot16 (f : String) : Reads1 [.slotPrim f] .slot16 [] [] [.cprim f] := by
  intro D S RG p rest hg
  obtain ⟨⟨k1, k2⟩, _⟩ := hg
  refine ⟨[], [S p], ?_, .nil, .cons k2 .nil⟩
  simp only [render, List.append_nil, Arg.read, Call.bytes,
    u16_bytes2 (S p) rest (by omega) (by omega), Option.map_some, Int.toNat_natCast]
  rfl

theorem reads_header {n t : Nat} (ht : t < 256) (hn : n < 4194304) :
    Reads1 (outHeader n t) .header [(t : Int), (n : Int)] [] [] := by
  intro D S RG p rest _
  refine ⟨[], [], ?_, .nil, .nil⟩
  simp only [outHeader, render, Call.bytes, List.append_nil, List.cons_append,
    List.nil_append, Arg.read, getU32, Option.map_some]
  have h1 : (byteOf t + 256 * byteOf ((n : Int) * 4) + 65536 * byteOf ((n : Int) / 64) +
      16777216 * byteOf ((n : Int) / 16384)) = t + 1024 * n := by
    unfold byteOf; omega
  rw [h1]
  have h2 : (t + 1024 * n) % 256 = t := by omega
  have h3 : (t + 1024 * n) / 1024 = n := by omega
  rw [h2, h3]
  rfl

theorem readTable_spec {D S RG} (orig : Nat) (ls : List Nat) : ∀ (i p : Nat) (rest : List Nat),
    p = orig + 4 * i → GoodAt D S RG p (switchTable i ls) →
    ∃ ts, readTable orig ls.length (render D S p (switchTable i ls) ++ rest) = some (ts, rest) ∧
      List.Forall₂ (RL D) ts ls ∧ sizeOf (switchTable i ls) = 4 * ls.length := by
  induction ls with
  | nil => intro i p rest _ _; exact ⟨[], rfl, .nil, rfl⟩
  | cons l ls ih =>
      intro i p rest hp hg
      simp only [switchTable, GoodAt] at hg
      obtain ⟨ts, e, f, hs⟩ := ih (i + 1) (p + 4) rest (by omega) hg.2
      obtain ⟨d, hd, e1⟩ := label_bytes
        (render D S (p + 4) (switchTable (i + 1) ls) ++ rest) hg.1
      refine ⟨(d : Int) :: ts, ?_, .cons ⟨d, hd, rfl⟩ f, ?_⟩
      · simp only [switchTable, render, List.append_assoc, List.length_cons, readTable]
        simp only [Call.size]
        rw [e1]
        simp only [Option.bind_some, e, Option.map_some]
        have : (orig : Int) + ((d : Int) - ((p - 4 * i : Nat) : Int)) = d := by omega
        rw [this]
      · simp only [switchTable, sizeOf, Call.size, hs, List.length_cons]; omega

theorem reads_table {ls : List Nat} (h : ls.length < 256) :
    Reads1 (.out ls.length :: switchTable 0 ls) .table [(ls.length : Int)] ls [] := by
  intro D S RG p rest hg
  obtain ⟨ts, e, f, hs⟩ := readTable_spec (p + 1) ls 0 (p + 1) rest (by omega) hg.2
  refine ⟨ts, [], ?_, f, .nil⟩
  simp only [render, Call.bytes, Call.size, List.cons_append, List.nil_append, Arg.read,
    byteOf_nat _ h, e, Option.map_some, sizeOf, hs]

/-! ## Instructions -/

/-- An opcode followed by its operands. -/
theorem chunk_of {b : Int} {as : List Call} {e : Entry} {ns : List Int} {ls : List Nat}
    {gs : List Glob} {ops : List (Op Nat Glob)} (he : table[byteOf b]? = some e)
    (hr : Reads as e.args ns ls gs)
    (ho : ∀ D RG ts ss, List.Forall₂ (RL D) ts ls → List.Forall₂ RG ss gs →
      AgreeAll D RG (e.ops ns ts ss) ops) :
    Chunk (.out b :: as) ops := by
  intro D S RG p rest hg
  obtain ⟨ts, ss, e1, f, g⟩ := hr D S RG (p + 1) rest hg.2
  refine ⟨e.ops ns ts ss, ?_, ho D RG ts ss f g⟩
  have hd : decode1 p (render D S p (.out b :: as) ++ rest) =
      some (e.ops ns ts ss, p + 1 + sizeOf as, rest) := by
    simp only [render, Call.bytes, Call.size, List.cons_append, List.nil_append, decode1, he,
      Option.bind_some, e1, Option.map_some]
  have := Decodes.step hd (.nil _ _)
  rw [List.append_nil] at this
  simp only [sizeOf, Call.size]
  rw [← Nat.add_assoc]
  exact this

/-- Closes goals about the correspondence of actions. -/
macro "agree" : tactic => `(tactic|
  (intro D RG ts ss hl hs
   repeat (first
    | exact .nil
    | refine .cons ⟨rfl, by first | rfl | simp, by first | exact hl | exact .nil,
        by first | exact hs | exact .nil⟩ ?_)))

end Mosml.Emit
