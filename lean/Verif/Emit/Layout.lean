import Verif.Emit.Model
import Mathlib.Data.List.TakeDrop

/-!
# What the emitter leaves in the buffer

`render` writes down the bytes for a sequence of emitter steps when the positions of
all labels are known; the emitter produces the same bytes by patching references to
labels that are defined later (`run_layout`).
-/

namespace Mosml.Emit

/-- Length of what a step writes. -/
def Call.size : Call → Nat
  | .out _ => 1
  | .short _ => 2
  | .long _ => 4
  | .label _ _ => 4
  | .define _ => 0
  | .slotLit _ => 4
  | .slotGet _ => 4
  | .slotSet _ => 4
  | .slotPrim _ => 2

def sizeOf : List Call → Nat
  | [] => 0
  | c :: cs => c.size + sizeOf cs

def bytes2 (v : Int) : List Nat := [byteOf v, byteOf (v / 256)]

def bytes4 (v : Int) : List Nat :=
  [byteOf v, byteOf (v / 256), byteOf (v / 65536), byteOf (v / 16777216)]

/-- The bytes of one step at position `p`. -/
def Call.bytes (D : Nat → Option Nat) (S : Nat → Nat) (p : Nat) : Call → List Nat
  | .out b => [byteOf b]
  | .short s => bytes2 s
  | .long l => bytes4 l
  | .label back l =>
      match D l with
      | some d => bytes4 ((d : Int) - ((p - back : Nat) : Int))
      | none => bytes4 0
  | .define _ => []
  | .slotLit _ => bytes4 (S p)
  | .slotGet _ => bytes4 (S p)
  | .slotSet _ => bytes4 (S p)
  | .slotPrim _ => bytes2 (S p)

/-- The bytes of a sequence of steps from position `p` on. -/
def render (D : Nat → Option Nat) (S : Nat → Nat) : Nat → List Call → List Nat
  | _, [] => []
  | p, c :: cs => c.bytes D S p ++ render D S (p + c.size) cs

/-- The label a step defines. -/
def Call.defines : Call → Option Nat
  | .define l => some l
  | _ => none

/-- Where a label is defined. -/
def defPos (l : Nat) : Nat → List Call → Option Nat
  | _, [] => none
  | p, c :: cs => if c.defines = some l then some p else defPos l (p + c.size) cs

/-- References to a label in a step. -/
def Call.refs (l p : Nat) : Call → List (Nat × Nat)
  | .label back l' => if l' = l then [(p, p - back)] else []
  | _ => []

/-- The references to a label. -/
def refs (l : Nat) : Nat → List Call → List (Nat × Nat)
  | _, [] => []
  | p, c :: cs => c.refs l p ++ refs l (p + c.size) cs

/-- Relocations of a step. -/
def Call.relocs (p : Nat) : Call → List (Reloc × Nat)
  | .slotGet u => [(.getglobal u, p)]
  | .slotSet u => [(.setglobal u, p)]
  | .slotPrim f => [(.primitive f, p)]
  | _ => []

def relocsOf : Nat → List Call → List (Reloc × Nat)
  | _, [] => []
  | p, c :: cs => c.relocs p ++ relocsOf (p + c.size) cs

/-- The literal table after a step. -/
def Call.addLits (same : SC → SC → Bool) (p : Nat) (t : List (SC × List Nat)) :
    Call → List (SC × List Nat)
  | .slotLit c => addLit same c p t
  | _ => t

def litsOf (same : SC → SC → Bool) : Nat → List Call → List (SC × List Nat) →
    List (SC × List Nat)
  | _, [], t => t
  | p, c :: cs, t => litsOf same (p + c.size) cs (c.addLits same p t)

/-! ## Appending -/

theorem sizeOf_append (a b : List Call) : sizeOf (a ++ b) = sizeOf a + sizeOf b := by
  induction a with
  | nil => simp [sizeOf]
  | cons c a ih => simp only [List.cons_append, sizeOf, ih]; omega

theorem Call.bytes_length (D S p) (c : Call) : (c.bytes D S p).length = c.size := by
  cases c with
  | label back l => simp only [Call.bytes]; split <;> rfl
  | _ => rfl

theorem render_length (D S) (p : Nat) (cs : List Call) :
    (render D S p cs).length = sizeOf cs := by
  induction cs generalizing p with
  | nil => rfl
  | cons c cs ih => simp only [render, List.length_append, ih, sizeOf, Call.bytes_length]

theorem render_append (D S) (p : Nat) (a b : List Call) :
    render D S p (a ++ b) = render D S p a ++ render D S (p + sizeOf a) b := by
  induction a generalizing p with
  | nil => simp [render, sizeOf]
  | cons c a ih =>
      simp only [List.cons_append, render, ih, List.append_assoc, sizeOf, Nat.add_assoc]

theorem defPos_append (l p : Nat) (a b : List Call) :
    defPos l p (a ++ b) = (defPos l p a).orElse fun _ => defPos l (p + sizeOf a) b := by
  induction a generalizing p with
  | nil => simp [defPos, sizeOf]
  | cons c a ih =>
      simp only [List.cons_append, defPos]
      split
      · rfl
      · rw [ih]; simp only [sizeOf, Nat.add_assoc]

theorem refs_append (l p : Nat) (a b : List Call) :
    refs l p (a ++ b) = refs l p a ++ refs l (p + sizeOf a) b := by
  induction a generalizing p with
  | nil => simp [refs, sizeOf]
  | cons c a ih =>
      simp only [List.cons_append, refs, ih, List.append_assoc, sizeOf, Nat.add_assoc]

theorem relocsOf_append (p : Nat) (a b : List Call) :
    relocsOf p (a ++ b) = relocsOf p a ++ relocsOf (p + sizeOf a) b := by
  induction a generalizing p with
  | nil => simp [relocsOf, sizeOf]
  | cons c a ih =>
      simp only [List.cons_append, relocsOf, ih, List.append_assoc, sizeOf, Nat.add_assoc]

theorem litsOf_append (same) (p : Nat) (a b : List Call) (t) :
    litsOf same p (a ++ b) t = litsOf same (p + sizeOf a) b (litsOf same p a t) := by
  induction a generalizing p t with
  | nil => simp [litsOf, sizeOf]
  | cons c a ih => simp only [List.cons_append, litsOf, ih, sizeOf, Nat.add_assoc]

/-! ## Bytes -/

theorem byteOf_shiftUns (v : Int) (k : Nat) (hk : k ≤ 55) :
    byteOf (shiftUns v k) = byteOf (v / 2 ^ k) := by
  unfold byteOf shiftUns
  congr 1
  have h1 : (2 : Int) ^ 63 = 2 ^ k * (256 * 2 ^ (55 - k)) := by
    rw [show (256 : Int) = 2 ^ 8 from rfl, ← pow_add, ← pow_add]; congr 1; omega
  have hp : (0 : Int) < 2 ^ k := by positivity
  rw [h1]
  have h2 := Int.emod_add_mul_ediv v (2 ^ k * (256 * 2 ^ (55 - k)))
  set M : Int := 256 * 2 ^ (55 - k) with hM
  set q := v / (2 ^ k * M) with hq
  set r := v % (2 ^ k * M) with hr
  have h3 : v = r + 2 ^ k * (M * q) := by rw [← h2]; ring
  have h4 : v / 2 ^ k = r / 2 ^ k + M * q := by
    rw [h3, Int.add_mul_ediv_left _ _ (ne_of_gt hp)]
  rw [h4, hM, mul_assoc, Int.add_mul_emod_self_left]

theorem byteOf_lt (v : Int) : byteOf v < 256 := by
  unfold byteOf; omega

/-- Writing four bytes over a list. -/
def patch4 (l : List Nat) (p : Nat) (v : Int) : List Nat :=
  (((l.set p (byteOf v)).set (p + 1) (byteOf (v / 256))).set (p + 2)
    (byteOf (v / 65536))).set (p + 3) (byteOf (v / 16777216))

def patch2 (l : List Nat) (p : Nat) (v : Int) : List Nat :=
  (l.set p (byteOf v)).set (p + 1) (byteOf (v / 256))

theorem patch4_append (pre : List Nat) (old suf : List Nat) (p : Nat) (v : Int)
    (hp : p = pre.length) (ho : old.length = 4) :
    patch4 (pre ++ (old ++ suf)) p v = pre ++ (bytes4 v ++ suf) := by
  subst hp
  match old, ho with
  | [a, b, c, d], _ =>
    unfold patch4 bytes4
    simp only [List.set_append, Nat.lt_irrefl, if_false, Nat.sub_self,
      List.cons_append, List.nil_append, List.set_cons_zero]
    simp

theorem patch2_append (pre : List Nat) (old suf : List Nat) (p : Nat) (v : Int)
    (hp : p = pre.length) (ho : old.length = 2) :
    patch2 (pre ++ (old ++ suf)) p v = pre ++ (bytes2 v ++ suf) := by
  subst hp
  match old, ho with
  | [a, b], _ =>
    unfold patch2 bytes2
    simp

/-! ## The buffer -/

/-- The buffer is large enough for what has been written, and not empty. -/
structure Ok (st : St) : Prop where
  pos_le : st.pos ≤ st.buf.length
  pos_pos : 0 < st.buf.length

theorem St.out_ok {st : St} (h : Ok st) (b : Int) : Ok (st.out b) := by
  obtain ⟨h1, h2⟩ := h
  constructor <;> simp only [St.out]
  · split
    · rw [List.length_set]; omega
    · simp only [List.length_set, List.length_append, List.length_replicate]; omega
  · split
    · rw [List.length_set]; omega
    · simp only [List.length_set, List.length_append, List.length_replicate]; omega

theorem St.out_take {st : St} (h : Ok st) (b : Int) :
    (st.out b).buf.take (st.pos + 1) = st.buf.take st.pos ++ [byteOf b] := by
  obtain ⟨h1, h2⟩ := h
  simp only [St.out]
  split
  next hlt =>
    rw [List.take_add_one, List.take_set_of_le (le_refl _), List.getElem?_set_self hlt]
    rfl
  next hge =>
    have hlen : st.pos = st.buf.length := by omega
    rw [List.take_add_one, List.take_set_of_le (le_refl _),
      List.getElem?_set_self (by simp only [List.length_append, List.length_replicate]; omega)]
    rw [List.take_append_of_le_length h1]
    rfl

theorem St.outLong_ok {st : St} (h : Ok st) (v : Int) : Ok (st.outLong v) :=
  St.out_ok (St.out_ok (St.out_ok (St.out_ok h _) _) _) _

theorem St.outShort_ok {st : St} (h : Ok st) (v : Int) : Ok (st.outShort v) :=
  St.out_ok (St.out_ok h _) _

theorem St.out_pos (st : St) (b : Int) : (st.out b).pos = st.pos + 1 := rfl

theorem St.outLong_take {st : St} (h : Ok st) (v : Int) :
    (st.outLong v).buf.take (st.pos + 4) = st.buf.take st.pos ++ bytes4 v := by
  unfold St.outLong
  have h1 := St.out_ok h v
  have h2 := St.out_ok h1 (shiftUns v 8)
  have h3 := St.out_ok h2 (shiftUns v 16)
  have e4 := St.out_take h3 (shiftSig v 24)
  have e3 := St.out_take h2 (shiftUns v 16)
  have e2 := St.out_take h1 (shiftUns v 8)
  have e1 := St.out_take h v
  simp only [St.out_pos] at e1 e2 e3 e4
  rw [show st.pos + 4 = st.pos + 1 + 1 + 1 + 1 from rfl, e4, e3, e2, e1,
    byteOf_shiftUns v 8 (by omega), byteOf_shiftUns v 16 (by omega)]
  simp only [List.append_assoc, List.cons_append, List.nil_append]
  rfl

theorem St.outShort_take {st : St} (h : Ok st) (v : Int) :
    (st.outShort v).buf.take (st.pos + 2) = st.buf.take st.pos ++ bytes2 v := by
  unfold St.outShort
  have h1 := St.out_ok h v
  have e2 := St.out_take h1 (shiftUns v 8)
  have e1 := St.out_take h v
  simp only [St.out_pos] at e1 e2
  rw [show st.pos + 2 = st.pos + 1 + 1 from rfl, e2, e1, byteOf_shiftUns v 8 (by omega)]
  simp only [List.append_assoc, List.cons_append, List.nil_append]
  rfl

/-- Writing inside the buffer is patching it. -/
theorem St.outLong_inside (st : St) (p : Nat) (v : Int) (h : p + 4 ≤ st.buf.length) :
    (({ st with pos := p } : St).outLong v).buf = patch4 st.buf p v := by
  have e : ∀ (s : St) (b : Int), s.pos < s.buf.length →
      s.out b = { s with buf := s.buf.set s.pos (byteOf b), pos := s.pos + 1 } := by
    intro s b hs
    simp only [St.out, if_pos hs]
  unfold St.outLong patch4
  rw [e { st with pos := p } v (by show p < st.buf.length; omega)]
  rw [e ⟨_, p + 1, _, _, _⟩ (shiftUns v 8) (by
    show p + 1 < (st.buf.set p (byteOf v)).length; rw [List.length_set]; omega)]
  rw [e ⟨_, p + 1 + 1, _, _, _⟩ (shiftUns v 16)
    (by show p + 1 + 1 < _; simp only [List.length_set]; omega)]
  rw [e ⟨_, p + 1 + 1 + 1, _, _, _⟩ (shiftSig v 24)
    (by show p + 1 + 1 + 1 < _; simp only [List.length_set]; omega)]
  rw [byteOf_shiftUns v 8 (by omega), byteOf_shiftUns v 16 (by omega)]
  rfl

theorem patch4_length (l p v) : (patch4 l p v).length = l.length := by
  simp only [patch4, List.length_set]

theorem patch4_take (l : List Nat) (p : Nat) (v : Int) (n : Nat) :
    (patch4 l p v).take n = patch4 (l.take n) p v := by
  simp only [patch4, List.take_set]

/-! ## Patching all references to a label -/

/-- Writing the offset of a label into all its references. -/
def patchAll (d : Nat) (l : List Nat) (rs : List (Nat × Nat)) : List Nat :=
  rs.foldr (fun r acc => patch4 acc r.1 ((d : Int) - r.2)) l

theorem patchAll_append (d : Nat) (l : List Nat) (a b : List (Nat × Nat)) :
    patchAll d l (a ++ b) = patchAll d (patchAll d l b) a := by
  simp only [patchAll, List.foldr_append]

theorem Call.bytes_congr (D D' : Nat → Option Nat) (S) (p : Nat) (c : Call)
    (h : ∀ back l, c = .label back l → D l = D' l) : c.bytes D S p = c.bytes D' S p := by
  cases c with
  | label back l => simp only [Call.bytes, h back l rfl]
  | _ => rfl

/-- Once the label `l` is known to be at `d`, patching its references gives the bytes
that would have been written had it been known from the start. -/
theorem patchAll_render (D : Nat → Option Nat) (S) (l d : Nat) (hl : D l = none)
    (cs : List Call) (p : Nat) (pre suf : List Nat) (hp : pre.length = p) :
    patchAll d (pre ++ (render D S p cs ++ suf)) (refs l p cs) =
      pre ++ (render (Function.update D l (some d)) S p cs ++ suf) := by
  induction cs generalizing p pre with
  | nil => rfl
  | cons c cs ih =>
      simp only [render, refs, patchAll_append, List.append_assoc]
      have h1 := ih (p + c.size) (pre ++ c.bytes D S p)
        (by rw [List.length_append, Call.bytes_length, hp])
      simp only [List.append_assoc] at h1
      rw [h1]
      cases c with
      | label back l' =>
          simp only [Call.refs]
          by_cases hll : l' = l
          · subst hll
            rw [if_pos rfl]
            simp only [patchAll, List.foldr_cons, List.foldr_nil]
            rw [patch4_append pre _ _ p _ hp.symm (Call.bytes_length D S p (.label back l'))]
            simp only [Call.bytes, Function.update_self]
          · rw [if_neg hll]
            simp only [patchAll, List.foldr_nil]
            rw [Call.bytes_congr D (Function.update D l (some d)) S p (.label back l')
              (by intro b l2 h2; injection h2 with _ h3; subst h3
                  rw [Function.update_of_ne hll])]
      | _ => rfl

/-- References lie inside the code. -/
theorem refs_lt (l : Nat) (cs : List Call) (p : Nat) :
    ∀ r ∈ refs l p cs, r.1 + 4 ≤ p + sizeOf cs := by
  induction cs generalizing p with
  | nil => intro r hr; cases hr
  | cons c cs ih =>
      intro r hr
      simp only [refs, List.mem_append] at hr
      rcases hr with hr | hr
      · cases c with
        | label back l' =>
            simp only [Call.refs] at hr
            split at hr
            · rw [List.mem_singleton] at hr; subst hr
              simp only [sizeOf, Call.size]; omega
            · cases hr
        | _ => cases hr
      · have := ih _ r hr
        simp only [sizeOf]; omega

/-! ## The label table -/

/-- The entry of a label, labels beyond the table being undefined. -/
def lookup (tbl : List LabelDef) (l : Nat) : LabelDef := (tbl[l]?).getD (.undefined [])

theorem ensure_lookup (tbl : List LabelDef) (l : Nat) (h : 0 < tbl.length) :
    (ensure tbl l)[l]? = some (lookup tbl l) ∧ l < (ensure tbl l).length ∧
    ∀ k, lookup (ensure tbl l) k = lookup tbl k := by
  unfold ensure lookup
  split
  next hlt => exact ⟨by simp only [List.getElem?_eq_getElem hlt, Option.getD_some], hlt, fun _ => rfl⟩
  next hge =>
    have hlen : l < (l / tbl.length + 1) * tbl.length := by
      have := Nat.lt_div_mul_add (a := l) h
      rw [Nat.add_mul, Nat.one_mul]; omega
    have hle : tbl.length ≤ (l / tbl.length + 1) * tbl.length := by
      rw [Nat.add_mul, Nat.one_mul]; omega
    have hl2 : l < (extendTable tbl l).length := by
      simp only [extendTable, List.length_append, List.length_replicate]; omega
    have hall : ∀ k : Nat, ((extendTable tbl l)[k]?).getD (LabelDef.undefined []) =
        (tbl[k]?).getD (LabelDef.undefined []) := by
      intro k
      unfold extendTable
      by_cases hk : k < tbl.length
      · rw [List.getElem?_append_left hk]
      · rw [List.getElem?_append_right (by omega), List.getElem?_replicate,
          List.getElem?_eq_none (l := tbl) (by omega)]
        split <;> rfl
    refine ⟨?_, hl2, hall⟩
    have := hall l
    rw [List.getElem?_eq_getElem hl2] at this ⊢
    rw [← this]; rfl

theorem lookup_set (tbl : List LabelDef) (l k : Nat) (x : LabelDef) (h : l < tbl.length) :
    lookup (tbl.set l x) k = if k = l then x else lookup tbl k := by
  unfold lookup
  by_cases hk : k = l
  · subst hk; rw [if_pos rfl, List.getElem?_set_self h]; rfl
  · rw [if_neg hk, List.getElem?_set_ne (fun e => hk e.symm)]

theorem St.out_fields (st : St) (b : Int) :
    (st.out b).labels = st.labels ∧ (st.out b).lits = st.lits ∧
    (st.out b).relocs = st.relocs := ⟨rfl, rfl, rfl⟩

theorem St.outLong_fields (st : St) (v : Int) :
    (st.outLong v).pos = st.pos + 4 ∧ (st.outLong v).labels = st.labels ∧
    (st.outLong v).lits = st.lits ∧ (st.outLong v).relocs = st.relocs := by
  simp only [St.outLong, St.out, and_self]

theorem St.outShort_fields (st : St) (v : Int) :
    (st.outShort v).pos = st.pos + 2 ∧ (st.outShort v).labels = st.labels ∧
    (st.outShort v).lits = st.lits ∧ (st.outShort v).relocs = st.relocs := by
  simp only [St.outShort, St.out, and_self]

attribute [local irreducible] St.out St.outLong St.outShort

/-! ## The emitter's invariant -/

/-- After the steps `done`. -/
structure Inv (same : SC → SC → Bool) (done : List Call) (st : St) : Prop where
  ok : Ok st
  pos : st.pos = sizeOf done
  bytes : st.buf.take st.pos = render (fun l => defPos l 0 done) (fun _ => 0) 0 done
  tblPos : 0 < st.labels.length
  table : ∀ l, lookup st.labels l =
    match defPos l 0 done with
    | some d => .defined d
    | none => .undefined (refs l 0 done).reverse
  lits : st.lits = litsOf same 0 done []
  relocs : st.relocs = (relocsOf 0 done).reverse

/-- A step that neither defines nor mentions a label. -/
theorem Inv.plain {same done st} (h : Inv same done st) (c : Call) (st' : St)
    (hd : c.defines = none) (hr : ∀ l p, c.refs l p = [])
    (hok : Ok st') (hpos : st'.pos = st.pos + c.size)
    (hbytes : st'.buf.take (st.pos + c.size) = st.buf.take st.pos ++
      c.bytes (fun l => defPos l 0 done) (fun _ => 0) st.pos)
    (htbl : st'.labels = st.labels)
    (hlits : st'.lits = c.addLits same st.pos st.lits)
    (hrel : st'.relocs = (c.relocs st.pos).reverse ++ st.relocs) :
    Inv same (done ++ [c]) st' := by
  have hD : ∀ l, defPos l 0 (done ++ [c]) = defPos l 0 done := by
    intro l
    rw [defPos_append]
    simp only [defPos, hd]
    cases defPos l 0 done <;> rfl
  have hsz : sizeOf (done ++ [c]) = sizeOf done + c.size := by
    rw [sizeOf_append]; simp [sizeOf]
  constructor
  · exact hok
  · rw [hpos, h.pos, hsz]
  · rw [hpos, hbytes, h.bytes, render_append]
    simp only [hD, render, List.append_nil, Nat.zero_add, h.pos]
  · rw [htbl]; exact h.tblPos
  · intro l
    rw [htbl, h.table l, hD, refs_append]
    simp only [refs, hr, List.append_nil]
  · rw [hlits, litsOf_append, h.lits, h.pos]
    simp only [litsOf, Nat.zero_add]
  · rw [hrel, relocsOf_append, h.relocs, h.pos]
    simp only [relocsOf, List.append_nil, List.reverse_append, Nat.zero_add]

theorem St.outLabel_defined {st : St} {orig l d : Nat} (ht : 0 < st.labels.length)
    (h : lookup st.labels l = .defined d) :
    st.outLabel orig l =
      some (({ st with labels := ensure st.labels l } : St).outLong ((d : Int) - orig)) := by
  unfold St.outLabel
  simp only [(ensure_lookup st.labels l ht).1, h]

theorem St.outLabel_undefined {st : St} {orig l : Nat} {L} (ht : 0 < st.labels.length)
    (h : lookup st.labels l = .undefined L) :
    st.outLabel orig l =
      some (({ st with labels :=
        (ensure st.labels l).set l (.undefined ((st.pos, orig) :: L)) } : St).outLong 0) := by
  unfold St.outLabel
  simp only [(ensure_lookup st.labels l ht).1, h]

theorem Inv.label {same done st} (h : Inv same done st) (back l : Nat) (st' : St)
    (hrun : (Call.label back l).run same st = some st') :
    Inv same (done ++ [.label back l]) st' := by
  have hD : ∀ k, defPos k 0 (done ++ [.label back l]) = defPos k 0 done := by
    intro k
    rw [defPos_append]
    simp only [defPos, Call.defines]
    cases defPos k 0 done <;> rfl
  have hsz : sizeOf (done ++ [.label back l]) = sizeOf done + 4 := by
    rw [sizeOf_append]; rfl
  have hlook := h.table l
  obtain ⟨-, hlt, hens⟩ := ensure_lookup st.labels l h.tblPos
  simp only [Call.run] at hrun
  have key : ∀ (tbl : List LabelDef) (v : Int),
      st' = ({ st with labels := tbl } : St).outLong v → 0 < tbl.length →
      bytes4 v = (Call.label back l).bytes (fun l => defPos l 0 done) (fun _ => 0) st.pos →
      (∀ k, lookup tbl k = match defPos k 0 done with
        | some d => LabelDef.defined d
        | none => .undefined (refs k 0 (done ++ [.label back l])).reverse) →
      Inv same (done ++ [.label back l]) st' := by
    intro tbl v hst htl hb htbl
    have hok : Ok ({ st with labels := tbl } : St) := ⟨h.ok.1, h.ok.2⟩
    have ht := St.outLong_take hok v
    obtain ⟨f1, f2, f3, f4⟩ := St.outLong_fields { st with labels := tbl } v
    rw [← hst] at f1 f2 f3 f4 ht
    simp only at f1 f2 f3 f4 ht
    refine ⟨by rw [hst]; exact St.outLong_ok hok v, ?_, ?_, by rw [f2]; exact htl, ?_, ?_, ?_⟩
    · rw [f1, h.pos, hsz]
    · rw [f1, ht, render_append, hb, h.bytes]
      simp only [hD, render, List.append_nil, Nat.zero_add, h.pos]
    · intro k
      rw [f2, htbl k, hD]
    · rw [f3, h.lits, litsOf_append]; rfl
    · rw [f4, h.relocs, relocsOf_append]
      simp only [relocsOf, Call.relocs, List.append_nil]
  have hrefs : ∀ k, refs k 0 (done ++ [.label back l]) =
      refs k 0 done ++ (if l = k then [(st.pos, st.pos - back)] else []) := by
    intro k
    rw [refs_append]
    simp only [refs, Call.refs, List.append_nil, Nat.zero_add, h.pos]
  cases hdef : defPos l 0 done with
  | some d =>
      rw [hdef] at hlook
      rw [St.outLabel_defined h.tblPos hlook] at hrun
      injection hrun with hrun
      refine key _ _ hrun.symm (by omega) ?_ ?_
      · simp only [Call.bytes, hdef]
      · intro k
        rw [hens, h.table k]
        cases hk : defPos k 0 done with
        | some d' => rfl
        | none =>
            simp only []
            rw [hrefs, if_neg (by rintro rfl; rw [hdef] at hk; cases hk), List.append_nil]
  | none =>
      rw [hdef] at hlook
      rw [St.outLabel_undefined h.tblPos hlook] at hrun
      injection hrun with hrun
      refine key _ _ hrun.symm (by rw [List.length_set]; omega) ?_ ?_
      · simp only [Call.bytes, hdef]
      · intro k
        rw [lookup_set _ _ _ _ hlt]
        by_cases hk : k = l
        · subst hk
          rw [if_pos rfl, hdef, hrefs, if_pos rfl]
          simp only [List.reverse_append, List.reverse_cons, List.reverse_nil, List.nil_append,
            List.cons_append]
        · rw [if_neg hk, hens, h.table k]
          cases defPos k 0 done with
          | some d' => rfl
          | none =>
              simp only []
              rw [hrefs, if_neg (fun e => hk e.symm), List.append_nil]

/-- The loop over the pending references. -/
theorem backpatch (cur : Nat) (L : List (Nat × Nat)) (st : St)
    (hle : cur ≤ st.buf.length) (hL : ∀ r ∈ L, r.1 + 4 ≤ cur) :
    let st' := L.foldl (fun s r => ({ s with pos := r.1 } : St).outLong ((cur : Int) - r.2)) st
    st'.labels = st.labels ∧ st'.lits = st.lits ∧ st'.relocs = st.relocs ∧
    st'.buf.length = st.buf.length ∧
    st'.buf.take cur = patchAll cur (st.buf.take cur) L.reverse := by
  induction L generalizing st with
  | nil => exact ⟨rfl, rfl, rfl, rfl, rfl⟩
  | cons r L ih =>
      have hr := hL r (List.mem_cons_self ..)
      have hin := St.outLong_inside st r.1 ((cur : Int) - r.2) (by omega)
      have hih := ih (({ st with pos := r.1 } : St).outLong ((cur : Int) - r.2))
        (by rw [hin, patch4_length]; exact hle)
        (fun x hx => hL x (List.mem_cons_of_mem _ hx))
      obtain ⟨h1, h2, h3, h4, h5⟩ := hih
      obtain ⟨-, f2, f3, f4⟩ := St.outLong_fields { st with pos := r.1 } ((cur : Int) - r.2)
      simp only [List.foldl_cons]
      refine ⟨by rw [h1, f2], by rw [h2, f3], by rw [h3, f4], ?_, ?_⟩
      · rw [h4, hin, patch4_length]
      · rw [h5, hin, patch4_take, List.reverse_cons, patchAll_append]
        rfl

theorem Inv.define {same done st} (h : Inv same done st) (l : Nat) (st' : St)
    (hrun : (Call.define l).run same st = some st') :
    defPos l 0 done = none ∧ Inv same (done ++ [.define l]) st' := by
  obtain ⟨hget, hlt, hens⟩ := ensure_lookup st.labels l h.tblPos
  have hlook := h.table l
  simp only [Call.run, St.define, hget] at hrun
  cases hdef : defPos l 0 done with
  | some d =>
      rw [hdef] at hlook
      rw [hlook] at hrun
      cases hrun
  | none =>
      refine ⟨rfl, ?_⟩
      rw [hdef] at hlook
      rw [hlook] at hrun
      simp only [Option.some.injEq] at hrun
      have hL : ∀ r ∈ (refs l 0 done).reverse, r.1 + 4 ≤ st.pos := by
        intro r hr
        rw [List.mem_reverse] at hr
        have := refs_lt l done 0 r hr
        rw [h.pos]; omega
      obtain ⟨b1, b2, b3, b4, b5⟩ := backpatch st.pos (refs l 0 done).reverse
        { st with labels := (ensure st.labels l).set l (.defined st.pos) } h.ok.1 hL
      rw [List.reverse_reverse] at b5
      have hD : ∀ k, defPos k 0 (done ++ [.define l]) =
          Function.update (fun k => defPos k 0 done) l (some st.pos) k := by
        intro k
        rw [defPos_append]
        by_cases hk : k = l
        · subst hk
          rw [hdef, Function.update_self]
          simp only [defPos, Call.defines, if_true, Nat.zero_add, h.pos]
          rfl
        · rw [Function.update_of_ne hk]
          simp only [defPos, Call.defines, Option.some.injEq, if_neg (fun e : l = k => hk e.symm)]
          cases defPos k 0 done <;> rfl
      have hDfun : (fun k => defPos k 0 (done ++ [.define l])) =
          Function.update (fun k => defPos k 0 done) l (some st.pos) := funext hD
      subst hrun
      refine ⟨⟨?_, ?_⟩, ?_, ?_, ?_, ?_, ?_, ?_⟩
      · show st.pos ≤ _; rw [b4]; exact h.ok.1
      · show 0 < _; rw [b4]; exact h.ok.2
      · show st.pos = _; rw [h.pos, sizeOf_append]; rfl
      · show List.take st.pos _ = _
        rw [b5]
        show patchAll st.pos (List.take st.pos st.buf) _ = _
        rw [h.bytes, hDfun, render_append]
        have := patchAll_render (fun l => defPos l 0 done) (fun _ => 0) l st.pos hdef done 0 []
          [] rfl
        simp only [List.nil_append, List.append_nil] at this
        rw [this]
        simp only [render, Call.bytes, List.append_nil]
      · show 0 < _; rw [b1]; show 0 < (List.set _ _ _).length; rw [List.length_set]; omega
      · intro k
        show lookup _ k = _
        rw [b1]
        show lookup ((ensure st.labels l).set l (.defined st.pos)) k = _
        rw [lookup_set _ _ _ _ hlt, hD]
        by_cases hk : k = l
        · subst hk
          rw [if_pos rfl, Function.update_self]
        · rw [if_neg hk, hens, h.table k, Function.update_of_ne hk, refs_append]
          simp only [refs, Call.refs, List.append_nil]
      · show (_ : St).lits = _
        rw [b2]
        show st.lits = _
        rw [h.lits, litsOf_append]; rfl
      · show (_ : St).relocs = _
        rw [b3]
        show st.relocs = _
        rw [h.relocs, relocsOf_append]
        simp only [relocsOf, Call.relocs, List.append_nil]

/-- Every step of the emitter keeps the invariant. -/
theorem Inv.run {same done st} (h : Inv same done st) (c : Call) (st' : St)
    (hrun : c.run same st = some st') : Inv same (done ++ [c]) st' := by
  cases c with
  | label back l => exact h.label back l st' hrun
  | define l => exact (h.define l st' hrun).2
  | out b =>
      simp only [Call.run, Option.some.injEq] at hrun
      obtain ⟨f2, f3, f4⟩ := St.out_fields st b
      have f1 := St.out_pos st b
      have ht := St.out_take h.ok b
      have ho := St.out_ok h.ok b
      rw [hrun] at f1 f2 f3 f4 ht ho
      exact h.plain _ _ rfl (fun _ _ => rfl) ho f1 ht f2 f3 f4
  | short s =>
      simp only [Call.run, Option.some.injEq] at hrun
      obtain ⟨f1, f2, f3, f4⟩ := St.outShort_fields st s
      have ht := St.outShort_take h.ok s
      have ho := St.outShort_ok h.ok s
      rw [hrun] at f1 f2 f3 f4 ht ho
      exact h.plain _ _ rfl (fun _ _ => rfl) ho f1 ht f2 f3 f4
  | long v =>
      simp only [Call.run, Option.some.injEq] at hrun
      obtain ⟨f1, f2, f3, f4⟩ := St.outLong_fields st v
      have ht := St.outLong_take h.ok v
      have ho := St.outLong_ok h.ok v
      rw [hrun] at f1 f2 f3 f4 ht ho
      exact h.plain _ _ rfl (fun _ _ => rfl) ho f1 ht f2 f3 f4
  | slotLit c =>
      simp only [Call.run, Option.some.injEq] at hrun
      have hok : Ok ({ st with lits := addLit same c st.pos st.lits } : St) := ⟨h.ok.1, h.ok.2⟩
      obtain ⟨f1, f2, f3, f4⟩ := St.outLong_fields ({ st with lits := addLit same c st.pos st.lits } : St) 0
      have ht := St.outLong_take hok 0
      have ho := St.outLong_ok hok 0
      rw [hrun] at f1 f2 f3 f4 ht ho
      exact h.plain _ _ rfl (fun _ _ => rfl) ho f1 ht f2 f3 f4
  | slotGet u =>
      simp only [Call.run, Option.some.injEq] at hrun
      have hok : Ok ({ st with relocs := (.getglobal u, st.pos) :: st.relocs } : St) := ⟨h.ok.1, h.ok.2⟩
      obtain ⟨f1, f2, f3, f4⟩ := St.outLong_fields ({ st with relocs := (.getglobal u, st.pos) :: st.relocs } : St) 0
      have ht := St.outLong_take hok 0
      have ho := St.outLong_ok hok 0
      rw [hrun] at f1 f2 f3 f4 ht ho
      exact h.plain _ _ rfl (fun _ _ => rfl) ho f1 ht f2 f3 f4
  | slotSet u =>
      simp only [Call.run, Option.some.injEq] at hrun
      have hok : Ok ({ st with relocs := (.setglobal u, st.pos) :: st.relocs } : St) := ⟨h.ok.1, h.ok.2⟩
      obtain ⟨f1, f2, f3, f4⟩ := St.outLong_fields ({ st with relocs := (.setglobal u, st.pos) :: st.relocs } : St) 0
      have ht := St.outLong_take hok 0
      have ho := St.outLong_ok hok 0
      rw [hrun] at f1 f2 f3 f4 ht ho
      exact h.plain _ _ rfl (fun _ _ => rfl) ho f1 ht f2 f3 f4
  | slotPrim u =>
      simp only [Call.run, Option.some.injEq] at hrun
      have hok : Ok ({ st with relocs := (.primitive u, st.pos) :: st.relocs } : St) := ⟨h.ok.1, h.ok.2⟩
      obtain ⟨f1, f2, f3, f4⟩ := St.outShort_fields ({ st with relocs := (.primitive u, st.pos) :: st.relocs } : St) 0
      have ht := St.outShort_take hok 0
      have ho := St.outShort_ok hok 0
      rw [hrun] at f1 f2 f3 f4 ht ho
      exact h.plain _ _ rfl (fun _ _ => rfl) ho f1 ht f2 f3 f4

theorem Inv.runCalls {same} (cs : List Call) : ∀ {done st st'}, Inv same done st →
    runCalls same cs st = some st' → Inv same (done ++ cs) st' := by
  induction cs with
  | nil =>
      intro done st st' h hrun
      simp only [Emit.runCalls, Option.some.injEq] at hrun
      subst hrun
      rw [List.append_nil]; exact h
  | cons c cs ih =>
      intro done st st' h hrun
      simp only [Emit.runCalls, Option.bind_eq_some_iff] at hrun
      obtain ⟨st1, h1, h2⟩ := hrun
      have := ih (h.run c st1 h1) h2
      rwa [List.append_assoc] at this

/-- The initial state of a phrase. -/
def St.init (buf : List Nat) : St :=
  { buf := buf, pos := 0, labels := List.replicate 16 (.undefined []), lits := [], relocs := [] }

/-- What the emitter leaves behind. -/
theorem run_layout {same : SC → SC → Bool} {buf : List Nat} {cs : List Call} {st : St}
    (hbuf : 0 < buf.length) (h : runCalls same cs (St.init buf) = some st) :
    Inv same cs st := by
  have h0 : Inv same [] (St.init buf) := by
    refine ⟨⟨by simp [St.init], hbuf⟩, rfl, ?_, by simp [St.init], ?_, rfl, rfl⟩
    · simp [St.init, render]
    · intro l
      simp only [St.init, lookup, List.getElem?_replicate, defPos, refs, List.reverse_nil]
      split <;> rfl
  have := h0.runCalls cs h
  rwa [List.nil_append] at this

end Mosml.Emit
