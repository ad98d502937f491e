import Verif.Pretty.Layout
import Verif.Num.Spec

/-!
# C78: the pretty printer prints what is documented
-/

namespace Mosml.Pretty

open Mosml.Num (Str chars)

/-- The sample used below: a list in brackets. -/
def sample : List Op :=
  [.bgn true 1, .str (chars "["), .brk 0 0, .bgn false 2, .str (chars "aaa"), .brk 1 0,
   .str (chars "bbb"), .fin, .brk 1 0, .str (chars "cccc"), .str (chars "]"), .fin]

theorem sample_nested : Nested 0 sample := by
  simp [sample, Nested]

theorem sample_plain : Plain sample := by
  refine ⟨?_, ?_, ?_⟩
  · intro s hs
    simp [sample] at hs
    rcases hs with rfl | rfl | rfl | rfl | rfl <;> decide +kernel
  · intro c o ho
    simp [sample] at ho
    rcases ho with ⟨_, rfl⟩ | ⟨_, rfl⟩ <;> omega
  · intro n o ho
    simp [sample] at ho
    rcases ho with ⟨_, rfl⟩ | ⟨_, rfl⟩ | ⟨_, rfl⟩ <;> omega

/-- **C78** Printing yields the layout, for properly nested calls (breaks are inside blocks and not
negative), and if the token buffer has a place for what may be pending: then no call fails, and
the result is as if all following calls were known at each break. -/
theorem C78_layout_partial (lw : Nat) (ops : List Op) (h5 : 5 ≤ lw) (hN : Nested 0 ops)
    (hR : Roomy lw ops) (hI : lw + negs ops < 999999) :
    ∃ out, layout lw ops = some out ∧ ppToString lw ops = .ok out :=
  main lw ops h5 hN hR hI

example : ppToString 9 sample = .ok (chars "[\n aaa bbb\n cccc]") := by decide +kernel
example : ppToString 20 sample = .ok (chars "[aaa bbb cccc]") := by decide +kernel
example : ∃ out, layout 9 sample = some out ∧ ppToString 9 sample = .ok out :=
  C78_layout_partial 9 sample (by omega) sample_nested (roomy_short (by decide)) (by decide)

/-- **C78** In particular if there are fewer calls than places. -/
theorem C78_layout_short (lw : Nat) (ops : List Op) (h5 : 5 ≤ lw) (hN : Nested 0 ops)
    (hl : ops.length < 3 * lw) (hI : lw + negs ops < 999999) :
    ∃ out, layout lw ops = some out ∧ ppToString lw ops = .ok out :=
  main lw ops h5 hN (roomy_short hl) hI

example : sample.length < 3 * 9 := by decide

/-- **C78** The output consists of the strings in order; each break is its blanks or a new line. -/
theorem C78_text_partial (lw : Nat) (ops : List Op) (h5 : 5 ≤ lw) (hN : Nested 0 ops)
    (hR : Roomy lw ops) (hI : lw + negs ops < 999999) :
    ∃ out, ppToString lw ops = .ok out ∧ Renders ops out := by
  obtain ⟨out, k1, k2⟩ := main lw ops h5 hN hR hI
  have hG : G lw 0 (ops ++ []) ⟨[], lw, []⟩ := by rw [List.append_nil]; exact G_init hN
  obtain ⟨pg', x, m1, m2, m3, m4, _⟩ := walk ops [] 0 _ hG
  rw [List.append_nil] at m1
  rw [layout, m1] at k1
  simp [annot, exec] at k1
  refine ⟨out, k2, ?_⟩
  rw [← k1, m4]
  exact m3

example : Renders [.bgn true 0, .str (chars "a"), .brk 1 2, .str (chars "b"), .fin]
    (chars "a" ++ (10 :: blanks 2 ++ (chars "b" ++ []))) :=
  .bgn _ _ (.str _ (.line _ _ _ (.str _ (.fin .nil))))

/-- **C78** Every break in every block is printed as documented: if the block fits (up to the next
break after it), as its blanks.  Otherwise, in a consistent block, as a new line, indented by
the column at which the block began, the offset of the block and that of the break; in an
inconsistent block, as its blanks if what follows, up to the next break, fits, and as
that new line if not. -/
theorem C78_break_partial (lw : Nat) (h b t : List Op) (c : Bool) (o n f : Int) (h5 : 5 ≤ lw)
    (hN : Nested 0 (h ++ .bgn c o :: (b ++ .brk n f :: t)))
    (hR : Roomy lw (h ++ .bgn c o :: (b ++ .brk n f :: t)))
    (hP : Plain (h ++ .bgn c o :: (b ++ .brk n f :: t))) (hI : lw < 999999) (hb : Inside 0 b) :
    ∃ x y sep z, ppToString lw (h ++ .bgn c o :: (b ++ .brk n f :: t)) = .ok (x ++ y ++ sep ++ z) ∧
      Renders h x ∧ Renders b y ∧ Renders t z ∧
      sep = if col x + dist 1 (b ++ .brk n f :: t) ≤ lw then blanks n
        else if c then 10 :: blanks (col x + o + f)
        else if col (x ++ y) + (n + dist 0 t) ≤ lw then blanks n
        else 10 :: blanks (col x + o + f) := by
  have hp := plain_mem hP
  have hz := plain_negs hp
  obtain ⟨out, k1, k2⟩ := main lw _ h5 hN hR (by rw [hz]; simpa [infinity] using hI)
  have hph : ∀ o ∈ h, PlainOp o := fun o ho => hp o (by simp [ho])
  have hpb : ∀ o ∈ b, PlainOp o := fun o ho => hp o (by simp [ho])
  have hpt : ∀ o ∈ t, PlainOp o := fun o ho => hp o (by simp [ho])
  have ho : 0 ≤ o := hp (.bgn c o) (by simp)
  have hf : 0 ≤ f := hp (.brk n f) (by simp)
  obtain ⟨g1, x, m1, m2, m3, m4, m5⟩ := walk h _ 0 _ (G_init (o0 := []) (lw := lw) hN)
  have hc1 : C lw g1 := m5 rfl hph (by simp [C, col])
  rw [plain_negs hph, add_zero] at m2
  obtain ⟨e1, e2⟩ := G_bgn m2
  have hnb : negs [Op.bgn c o] = 0 := by simp [negs]; omega
  rw [hnb, add_zero] at e2
  obtain ⟨g2, y, q1, q2, q3, q4, q5, q6⟩ := inside_ist b (.brk n f :: t) 0 _ []
    (info lw c o (b ++ .brk n f :: t) g1 :: g1.ist) e2 hb rfl
  have hc2 : C lw g2 := q5 rfl hpb hc1
  rw [plain_negs hpb, add_zero] at q2
  obtain ⟨i, l, g3, r1, r2, r3, r4, r5⟩ := G_brk q2
  have hnb : negs [Op.brk n f] = 0 := by simp [negs]; omega
  rw [hnb, add_zero] at r4
  obtain ⟨g4, z, s1, s2, s3, s4, _⟩ := walk t [] 0 g3 (by rw [List.append_nil]; exact r4)
  rw [List.append_nil] at s1
  have hg1 : g1.out = x := by rw [m4]; rfl
  have hg2 : g2.out = x ++ y := by rw [q4]; simp only [hg1]
  rw [q6] at r1
  simp only [List.cons.injEq] at r1
  have hi := r1.1
  unfold C at hc1 hc2
  rw [hg1] at hc1
  rw [hg2] at hc2
  have hout : out = g4.out := by
    rw [layout, m1, annot_cons, exec_cons, e1] at k1
    simp only [Option.bind_some] at k1
    rw [q1, annot_cons, exec_cons, r2] at k1
    simp only [Option.bind_some] at k1
    rw [s1] at k1
    simp [annot, exec] at k1
    exact k1.symm
  obtain ⟨sep, t1, t2⟩ : ∃ sep, g3.out = x ++ y ++ sep ∧
      sep = if col x + dist 1 (b ++ .brk n f :: t) ≤ lw then blanks n
        else if c then 10 :: blanks (col x + o + f)
        else if col (x ++ y) + (n + dist 0 t) ≤ lw then blanks n
        else 10 :: blanks (col x + o + f) := by
    rw [info] at hi
    by_cases h1 : col x + dist 1 (b ++ .brk n f :: t) ≤ lw
    · rw [if_pos (by omega)] at hi
      subst hi
      rcases r5 with ⟨u1, _⟩ | ⟨k, _, _, _, u⟩
      · exact ⟨blanks n, by rw [u1, hg2], by rw [if_pos h1]⟩
      · rcases u with u | ⟨u, _⟩ <;> simp at u
    · rw [if_neg (by omega)] at hi
      have ek : (lw : Int) - g1.sp + o + f = col x + o + f := by omega
      cases c with
      | true =>
        simp only [if_true] at hi
        subst hi
        rcases r5 with ⟨_, _, _, u⟩ | ⟨k, u1, _, _, u⟩
        · rcases u with u | ⟨_, u, _⟩ <;> simp at u
        · rcases u with u | ⟨u, _⟩
          · simp at u
            subst u
            refine ⟨_, by rw [u1, hg2], ?_⟩
            rw [if_neg h1, if_pos rfl, ek]
          · simp at u
      | false =>
        simp only [Bool.false_eq_true, if_false] at hi
        subst hi
        rcases r5 with ⟨u1, _, _, u⟩ | ⟨k, u1, _, _, u⟩
        · rcases u with u | ⟨_, _, u⟩
          · simp at u
          · refine ⟨_, by rw [u1, hg2], ?_⟩
            rw [if_neg h1, if_neg (by simp), if_pos (by omega)]
        · rcases u with u | ⟨u, u2⟩
          · simp at u
          · simp at u
            subst u
            refine ⟨_, by rw [u1, hg2], ?_⟩
            rw [if_neg h1, if_neg (by simp), if_neg (by omega), ek]
  refine ⟨x, y, sep, z, ?_, m3, q3, s3, t2⟩
  rw [k2, hout, s4, t1]

example : sample = [] ++ .bgn true 1 :: ([.str (chars "["), .brk 0 0, .bgn false 2, .str (chars "aaa"),
    .brk 1 0, .str (chars "bbb"), .fin] ++ .brk 1 0 :: [.str (chars "cccc"), .str (chars "]"), .fin]) ∧
    Nested 0 sample ∧ Roomy 9 sample ∧ Plain sample ∧
    Inside 0 [.str (chars "["), .brk 0 0, .bgn false 2, .str (chars "aaa"),
    .brk 1 0, .str (chars "bbb"), .fin] :=
  ⟨rfl, sample_nested, roomy_short (by decide), sample_plain, by simp [Inside]⟩

/-- **C78** A line is too long only if what follows a new line (or the beginning), up to the next
break, is too long: after a break printed as blanks, the text up to the next break fits. -/
theorem C78_width_partial (lw : Nat) (h m t : List Op) (n f : Int) (h5 : 5 ≤ lw)
    (hN : Nested 0 (h ++ .brk n f :: (m ++ t))) (hR : Roomy lw (h ++ .brk n f :: (m ++ t)))
    (hP : Plain (h ++ .brk n f :: (m ++ t))) (hI : lw < 999999) (hm : ∀ n o, .brk n o ∉ m) :
    ∃ x sep z, ppToString lw (h ++ .brk n f :: (m ++ t)) = .ok (x ++ sep ++ text m ++ z) ∧
      Renders h x ∧ Renders t z ∧
      ((sep = blanks n ∧ col (x ++ sep ++ text m) ≤ lw) ∨ ∃ k, sep = 10 :: blanks k) := by
  have hp := plain_mem hP
  have hz := plain_negs hp
  obtain ⟨out, k1, k2⟩ := main lw _ h5 hN hR (by rw [hz]; simpa [infinity] using hI)
  have hph : ∀ o ∈ h, PlainOp o := fun o ho => hp o (by simp [ho])
  have hpm : ∀ o ∈ m, PlainOp o := fun o ho => hp o (by simp [ho])
  have hf : 0 ≤ f := hp (.brk n f) (by simp)
  obtain ⟨g1, x, m1, m2, m3, m4, m5⟩ := walk h _ 0 _ (G_init (o0 := []) (lw := lw) hN)
  have hc1 : C lw g1 := m5 rfl hph (by simp [C, col])
  rw [plain_negs hph, add_zero] at m2
  obtain ⟨i, l, g3, r1, r2, r3, r4, r5⟩ := G_brk m2
  have hnn := m2.nest.2.1
  have hnb : negs [Op.brk n f] = 0 := by simp [negs]; omega
  rw [hnb, add_zero] at r4
  obtain ⟨g4, y, s1, s2, s3, s4, s5⟩ := walk m t 0 g3 r4
  rw [plain_negs hpm, add_zero] at s2
  obtain ⟨g5, z, v1, v2, v3, v4, _⟩ := walk t [] 0 g4 (by rw [List.append_nil]; exact s2)
  rw [List.append_nil] at v1
  have hy := renders_text s3 hm
  subst hy
  have hg1 : g1.out = x := by rw [m4]; rfl
  have hout : out = g5.out := by
    rw [layout, m1, annot_cons, exec_cons, r2] at k1
    simp only [Option.bind_some] at k1
    rw [s1, v1] at k1
    simp [annot, exec] at k1
    exact k1.symm
  have hl := text_le m t 0 _ hm r4.nest
  have hnl : 10 ∉ text m := by
    clear hN hR hP k1 k2 hp hz m1 m2 r2 r4 r5 s1 s3 s4 s5 hl hm
    induction m with
    | nil => simp [text]
    | cons o m ih =>
      have i := ih (fun o ho => hpm o (List.mem_cons_of_mem _ ho))
      have := hpm o (by simp)
      cases o <;> simp_all [text, PlainOp]
  unfold C at hc1
  rw [hg1] at hc1
  rcases r5 with ⟨u1, u2, u3, _⟩ | ⟨k, u1, _⟩
  · refine ⟨x, blanks n, z, ?_, m3, v3, Or.inl ⟨rfl, ?_⟩⟩
    · rw [k2, hout, v4, s4, u1, hg1]
    · have := blanks_length hnn
      rw [col_append _ _ hnl, col_append _ _ (blanks_no n)]
      omega
  · refine ⟨x, 10 :: blanks (k + f), z, ?_, m3, v3, Or.inr ⟨_, rfl⟩⟩
    rw [k2, hout, v4, s4, u1, hg1]

example : sample = [.bgn true 1, .str (chars "["), .brk 0 0, .bgn false 2, .str (chars "aaa"), .brk 1 0,
    .str (chars "bbb"), .fin] ++ .brk 1 0 :: ([.str (chars "cccc"), .str (chars "]"), .fin] ++ []) := rfl

/-- **C78** `add_newline` is a new line, unless offsets are negative. -/
theorem C78_newline_partial (lw : Nat) (h t : List Op) (h5 : 5 ≤ lw)
    (hN : Nested 0 (h ++ newline lw :: t)) (hR : Roomy lw (h ++ newline lw :: t))
    (hI : lw < 999998) (hn : negs (h ++ newline lw :: t) ≤ 1) :
    ∃ x k z, ppToString lw (h ++ newline lw :: t) = .ok (x ++ (10 :: blanks k ++ z)) ∧
      Renders h x ∧ Renders t z := by
  obtain ⟨out, k1, k2⟩ := main lw _ h5 hN hR (by simp only [infinity]; omega)
  obtain ⟨g1, x, m1, m2, m3, m4, m5⟩ := walk h _ 0 _ (G_init (o0 := []) (lw := lw) hN)
  obtain ⟨i, l, g3, r1, r2, r3, r4, r5⟩ := G_brk m2
  obtain ⟨g4, z, s1, s2, s3, s4, _⟩ := walk t [] _ g3 (by rw [List.append_nil]; exact r4)
  rw [List.append_nil] at s1
  have hg1 : g1.out = x := by rw [m4]; rfl
  have hout : out = g4.out := by
    rw [layout, m1, newline, annot_cons, exec_cons, r2] at k1
    simp only [Option.bind_some] at k1
    rw [s1] at k1
    simp [annot, exec] at k1
    exact k1.symm
  rw [negs_append] at hn
  have := negs_nonneg (newline lw :: t)
  have hq := m2.q.1
  have hnest := m2.nest.2.2
  rcases r5 with ⟨u1, u2, u3, u4⟩ | ⟨k, u1, _⟩
  · exfalso
    rcases u4 with rfl | ⟨_, _, u4⟩
    · have := m2.fits 0 (by rw [r1]; rfl)
      rw [newline, dist, if_neg (by omega)] at this
      have := dist_nonneg t (0 + 1) _ hnest
      omega
    · have := dist_nonneg t 0 _ hnest
      omega
  · refine ⟨x, k + 0, z, ?_, m3, s3⟩
    rw [k2, hout, s4, u1, hg1]; simp

example : ppToString 9 [.bgn false 1, .str (chars "a"), newline 9, .str (chars "b"), .fin] =
    .ok (chars "a\n b") := by decide +kernel

/-- **C78** With a negative offset, `add_newline` may print blanks. -/
theorem C78_newline_violation : ∃ (lw : Nat) (h t : List Op), 5 ≤ lw ∧ Nested 0 (h ++ newline lw :: t) ∧
    (h ++ newline lw :: t).length < 3 * lw ∧
    ppToString lw (h ++ newline lw :: t) = .ok (10 :: (blanks (lw + 2) ++ chars "x")) :=
  ⟨10, [.bgn false (-3), newline 10], [.str (chars "x"), .fin], by omega,
    by simp [Nested, newline], by decide, by decide +kernel⟩

/-- **C78** A flushed stream is as new: what is printed next is laid out independently. -/
theorem C78_flush_partial (lw : Nat) (ops ops' : List Op) (h5 : 5 ≤ lw) (hN : Nested 0 ops)
    (hR : Roomy lw ops) (hI : lw + negs ops < 999999) (hN' : Nested 0 ops') (hR' : Roomy lw ops')
    (hI' : lw + negs ops' < 999999) :
    ∃ s0 s1 s2 s3 s4 out out', mk lw = .ok s0 ∧ steps s0 ops = .ok s1 ∧ flush s1 = .ok s2 ∧
      steps s2 ops' = .ok s3 ∧ flush s3 = .ok s4 ∧ layout lw ops = some out ∧
      layout lw ops' = some out' ∧ s4.out = out ++ out' := by
  obtain ⟨g, s1, s2, k0, k1, k2, k3, k4⟩ := main0 lw ops [] h5 hN hR hI
  obtain ⟨g', s3, s4, m0, m1, m2, m3, m4⟩ := main0 lw ops' g.out h5 hN' hR' hI'
  have hc : clear s2 = start lw g.out := by
    rw [← k3]
    simp only [clear, start, page, k4]
  have he := exec_prefix lw g.out (annot ops') [] lw []
  rw [List.append_nil, m0] at he
  cases hx : exec lw (annot ops') ⟨[], lw, []⟩ with
  | none => rw [hx] at he; simp at he
  | some g2 =>
    rw [hx] at he
    simp at he
    refine ⟨_, s1, clear s2, s3, clear s4, g.out, g2.out, mk_start h5, k1, by simp only [flush, k2], ?_,
      by simp only [flush, m2], by rw [layout, k0]; rfl, by rw [layout, hx]; rfl, ?_⟩
    · rw [hc]; exact m1
    · have : (clear s4).out = g'.out := by rw [← m3]; rfl
      rw [this, he]

example : Roomy 9 sample := roomy_short (by decide)

/-- **C78** Flushing when a block is open loses text, though it is to be flushed to the consumer, and
the end of the block then fails. -/
theorem C78_flush_violation : ∃ s0 s1 s2, mk 10 = .ok s0 ∧
    steps s0 [.bgn false 0, .str (chars "x")] = .ok s1 ∧ flush s1 = .ok s2 ∧ s2.out = [] ∧
    endBlock s2 = .error .pop :=
  ⟨start 10 [], _, _, rfl, rfl, rfl, by decide +kernel, rfl⟩

/-- **C78** Properly nested calls can fail: when more is pending than the token buffer has places for,
tokens are overwritten.  Here ten one-letter blocks and breaks without blanks are printed on a line
of width ten. -/
theorem C78_buffer_violation : ∃ (lw : Nat) (ops : List Op), 5 ≤ lw ∧ Nested 0 ops ∧ Plain ops ∧
    (∃ out, layout lw ops = some out) ∧ ppToString lw ops = .error .pop := by
  refine ⟨10, [.bgn true 0] ++ (List.replicate 10 [.bgn false 0, .str (chars "a"), .fin, .brk 0 2]).flatten ++
    [.str (chars "x"), .fin], by omega, ?_, ⟨?_, ?_, ?_⟩, ?_, by decide +kernel⟩
  · simp [Nested, List.replicate]
  · intro s hs
    simp [List.replicate] at hs
    rcases hs with rfl | rfl <;> decide +kernel
  · intro c o ho
    simp [List.replicate] at ho
    omega
  · intro n o ho
    simp [List.replicate] at ho
    omega
  · exact ⟨_, rfl⟩

/-- **C78** Tokens can also be overwritten without a failure, and text is lost. -/
theorem C78_lost_violation : ∃ (lw : Nat) (ops : List Op), 5 ≤ lw ∧ Nested 0 ops ∧
    layout lw ops = some (chars "x") ∧ ppToString lw ops = .ok [] := by
  refine ⟨10, [.bgn true 0] ++ (List.replicate 10 [.bgn false 0, .brk 0 0, .bgn false 0, .str [], .fin, .fin]).flatten ++
    [.str (chars "x"), .fin], by omega, ?_, by decide +kernel, by decide +kernel⟩
  simp [Nested, List.replicate]

/-! ## The queue of delimiters -/

/-- The queue holds the elements, from the front to the back. -/
def Holds (q : Queue) (l : List Nat) : Prop :=
  0 < q.size ∧
  match q.ends with
  | none => l = []
  | some (f, b) => f < q.size ∧ 0 < l.length ∧ l.length ≤ q.size ∧ b = (f + (l.length - 1)) % q.size ∧
      ∀ i x, l[i]? = some x → q.elems ((f + i) % q.size) = x

theorem queue_push {q : Queue} {l : List Nat} (h : Holds q l) (x : Nat) :
    (l.length < q.size → ∃ q', q.push x = some q' ∧ Holds q' (x :: l) ∧ q'.size = q.size) ∧
    (l.length = q.size → q.push x = none) := by
  obtain ⟨hs, h⟩ := h
  cases he : q.ends with
  | none =>
    rw [he] at h
    simp only at h
    subst h
    refine ⟨fun _ => ⟨⟨fun j => if j = 0 then x else q.elems j, some (0, 0), q.size⟩,
      by simp only [Queue.push, he], ?_, rfl⟩, fun h => by simp at h; omega⟩
    refine ⟨hs, hs, by simp, by simp; omega, by simp, ?_⟩
    intro i y hy
    cases i with
    | zero => simp at hy; simp [hy]
    | succ i => simp at hy
  | some e =>
    obtain ⟨f, b⟩ := e
    rw [he] at h
    obtain ⟨h1, h2, h3, h4, h5⟩ := h
    refine ⟨fun hl => ?_, fun hl => ?_⟩
    · have hne : ¬ (f + (q.size - 1)) % q.size = b := by
        rw [h4]
        intro hh
        have := mod_inj (by omega) (by omega) hh
        omega
      refine ⟨⟨fun j => if j = (f + (q.size - 1)) % q.size then x else q.elems j,
        some ((f + (q.size - 1)) % q.size, b), q.size⟩,
        by simp only [Queue.push, he, if_neg hne], ?_, rfl⟩
      refine ⟨hs, Nat.mod_lt _ hs, by simp, by simp; omega, ?_, ?_⟩
      · simp only [List.length_cons, Nat.add_sub_cancel]
        rw [h4, Nat.mod_add_mod, show f + (q.size - 1) + l.length = f + (l.length - 1) + q.size by omega,
          Nat.add_mod_right]
      · intro i y hy
        simp only
        rw [Nat.mod_add_mod]
        cases i with
        | zero =>
          simp at hy
          rw [if_pos (by rw [Nat.add_zero]), hy]
        | succ i =>
          have hi : i < l.length := by
            by_contra hc
            rw [List.getElem?_cons_succ, List.getElem?_eq_none (by omega)] at hy
            simp at hy
          have e1 : (f + (q.size - 1) + (i + 1)) % q.size = (f + i) % q.size := by
            rw [show f + (q.size - 1) + (i + 1) = f + i + q.size by omega, Nat.add_mod_right]
          rw [e1, if_neg]
          · exact h5 i y (by simpa using hy)
          · intro hh
            have := mod_inj (by omega) (by omega) hh
            omega
    · simp only [Queue.push, he]
      rw [if_pos (by rw [h4, hl])]

theorem queue_pop {q : Queue} {l : List Nat} (h : Holds q l) :
    Holds q.pop l.tail ∧ q.pop.size = q.size := by
  obtain ⟨hs, h⟩ := h
  cases he : q.ends with
  | none =>
    rw [he] at h
    simp only at h
    subst h
    simp only [Queue.pop, he]
    exact ⟨⟨hs, by rw [he]; simp⟩, trivial⟩
  | some e =>
    obtain ⟨f, b⟩ := e
    rw [he] at h
    obtain ⟨h1, h2, h3, h4, h5⟩ := h
    simp only [Queue.pop, he]
    cases l with
    | nil => simp at h2
    | cons x l =>
      simp only [List.length_cons, Nat.add_sub_cancel] at h3 h4
      by_cases hf : f = b
      · rw [if_pos hf]
        have : l = [] := by
          have h6 : (f + 0) % q.size = (f + l.length) % q.size := by
            rw [Nat.add_zero, Nat.mod_eq_of_lt h1, ← h4, hf]
          have := mod_inj hs (by omega) h6
          exact List.length_eq_zero_iff.1 this.symm
        subst this
        exact ⟨⟨hs, rfl⟩, rfl⟩
      · rw [if_neg hf]
        have hl : 0 < l.length := by
          by_contra hc
          have : l.length = 0 := by omega
          rw [this, Nat.add_zero, Nat.mod_eq_of_lt h1] at h4
          exact hf h4.symm
        refine ⟨⟨hs, Nat.mod_lt _ hs, hl, by simp; omega, ?_, ?_⟩, rfl⟩
        · rw [h4, Nat.mod_add_mod]
          congr 1; simp; omega
        · intro i y hy
          rw [Nat.mod_add_mod]
          have := h5 (i + 1) y (by simpa using hy)
          rw [← this, show f + 1 + i = f + (i + 1) by omega]

theorem queue_popBack {q : Queue} {l : List Nat} (h : Holds q l) :
    Holds q.popBack l.dropLast ∧ q.popBack.size = q.size := by
  obtain ⟨hs, h⟩ := h
  cases he : q.ends with
  | none =>
    rw [he] at h
    simp only at h
    subst h
    simp only [Queue.popBack, he]
    exact ⟨⟨hs, by rw [he]; simp⟩, trivial⟩
  | some e =>
    obtain ⟨f, b⟩ := e
    rw [he] at h
    obtain ⟨h1, h2, h3, h4, h5⟩ := h
    simp only [Queue.popBack, he]
    by_cases hf : f = b
    · rw [if_pos hf]
      have : l.dropLast = [] := by
        have h6 : (f + 0) % q.size = (f + (l.length - 1)) % q.size := by
          rw [Nat.add_zero, Nat.mod_eq_of_lt h1, ← h4, hf]
        have := mod_inj hs (by omega) h6
        apply List.length_eq_zero_iff.1
        simp; omega
      rw [this]
      exact ⟨⟨hs, rfl⟩, rfl⟩
    · rw [if_neg hf]
      have hl : 1 < l.length := by
        by_contra hc
        have : l.length = 1 := by omega
        rw [this, Nat.sub_self, Nat.add_zero, Nat.mod_eq_of_lt h1] at h4
        exact hf h4.symm
      refine ⟨⟨hs, h1, by simp; omega, by simp; omega, ?_, ?_⟩, rfl⟩
      · simp only
        rw [h4, Nat.mod_add_mod, List.length_dropLast,
          show f + (l.length - 1) + (q.size - 1) = f + (l.length - 1 - 1) + q.size by omega,
          Nat.add_mod_right]
      · intro i y hy
        refine h5 i y ?_
        rw [List.getElem?_dropLast] at hy
        split at hy
        · exact hy
        · simp at hy

/-- **C78** The circular queue is a double-ended queue of at most the given size. -/
theorem C78_queue (q : Queue) (l : List Nat) (x : Nat) (h : Holds q l) :
    (l.length < q.size → ∃ q', q.push x = some q' ∧ Holds q' (x :: l)) ∧
    (l.length = q.size → q.push x = none) ∧
    Holds q.pop l.tail ∧ Holds q.popBack l.dropLast ∧
    q.front = l.head? ∧ q.back = l.getLast? ∧ Holds q.clear [] := by
  refine ⟨fun hl => ?_, (queue_push h x).2, (queue_pop h).1, (queue_popBack h).1, ?_, ?_, ⟨h.1, rfl⟩⟩
  · obtain ⟨q', k1, k2, _⟩ := (queue_push h x).1 hl
    exact ⟨q', k1, k2⟩
  · obtain ⟨hs, h⟩ := h
    cases he : q.ends with
    | none => rw [he] at h; simp only at h; subst h; simp [Queue.front, he]
    | some e =>
      obtain ⟨f, b⟩ := e
      rw [he] at h
      obtain ⟨h1, h2, h3, h4, h5⟩ := h
      cases l with
      | nil => simp at h2
      | cons y l =>
        have := h5 0 y rfl
        rw [Nat.add_zero, Nat.mod_eq_of_lt h1] at this
        simp [Queue.front, he, this]
  · obtain ⟨hs, h⟩ := h
    cases he : q.ends with
    | none => rw [he] at h; simp only at h; subst h; simp [Queue.back, he]
    | some e =>
      obtain ⟨f, b⟩ := e
      rw [he] at h
      obtain ⟨h1, h2, h3, h4, h5⟩ := h
      have hlt : l.length - 1 < l.length := by omega
      have := h5 (l.length - 1) l[l.length - 1] (List.getElem?_eq_getElem hlt)
      rw [List.getLast?_eq_getElem?, List.getElem?_eq_getElem hlt]
      simp [Queue.back, he, h4, this]

example : Holds ⟨fun i => [10, 11, 12, 13, 14].getD i 0, some (3, 0), 5⟩ [13, 14, 10] := by
  refine ⟨by decide, by decide, by decide, by decide, by decide, ?_⟩
  intro i x h
  match i with
  | 0 => simpa using h
  | 1 => simpa using h
  | 2 => simpa using h
  | i + 3 => simp at h

end Mosml.Pretty
