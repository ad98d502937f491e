import Verif.Emit.Link

/-!
# Emission and linking of a phrase
-/

namespace Mosml.Emit

/-- Program text: instructions, and the STOP that ends the code of a phrase entered
interactively (src/compiler/Load_phr.sml:46). -/
abbrev Text := List (Option Zam)

def itemOps : Option Zam → List (Op Nat Glob)
  | some z => z.ops
  | none => [{ kind := .stop }]

/-- The steps of the emitter for a text made of pieces on which `emit` is called. -/
inductive Emits : Text → List Call → Prop where
  | nil : Emits [] []
  | code {zs : List Zam} {cs : List Call} {T : Text} {ds : List Call} :
      emit zs = some cs → Emits T ds → Emits (zs.map some ++ T) (cs ++ ds)
  | stop {T : Text} {ds : List Call} : Emits T ds → Emits (none :: T) (o Opc.STOP :: ds)

theorem Emits.chunk {T cs} (h : Emits T cs) (hw : ∀ z, some z ∈ T → z.Wf) :
    Chunk cs (T.flatMap itemOps) := by
  induction h with
  | nil => exact chunk_nil
  | @code zs cs T ds he _ ih =>
      rw [List.flatMap_append]
      refine Chunk.append ?_ (ih (fun z hz => hw z (by simp [hz])))
      have : (zs.map some).flatMap itemOps = zs.flatMap Zam.ops := by
        rw [List.flatMap_map]; rfl
      rw [this]
      exact chunk_emit zs (fun z hz => hw z (by simp [hz])) he
  | @stop T ds _ ih =>
      exact Chunk.append (a := [o Opc.STOP]) (x := [{ kind := .stop }]) (chunk_cmp rfl rfl rfl)
        (ih (fun z hz => hw z (by simp [hz])))

theorem Emits.lab {T cs} (h : Emits T cs) : Lab cs (T.flatMap itemOps) := by
  induction h with
  | nil => exact ⟨trivial, rfl, rfl⟩
  | @code zs cs T ds he _ ih =>
      rw [List.flatMap_append]
      refine Lab.append ?_ ih
      have : (zs.map some).flatMap itemOps = zs.flatMap Zam.ops := by
        rw [List.flatMap_map]; rfl
      rw [this]
      exact lab_emit zs he
  | @stop T ds _ ih =>
      exact Lab.append (a := [o Opc.STOP]) (x := [{ kind := .stop }]) ⟨by simp [BackOk], rfl, rfl⟩ ih

/-- A label divides the text and the code. -/
theorem Emits.split {T cs} (h : Emits T cs) {pre post : Text} {l : Nat}
    (he : T = pre ++ some (.label l) :: post) :
    ∃ a b, cs = a ++ .define l :: b ∧ Emits pre a ∧ Emits post b := by
  induction h generalizing pre with
  | nil => simp at he
  | @code zs cs T ds hz h ih =>
      rw [List.append_eq_append_iff] at he
      rcases he with ⟨pre', rfl, h2⟩ | ⟨post', h1, h2⟩
      · obtain ⟨a, b, rfl, ha, hb⟩ := ih h2
        exact ⟨cs ++ a, b, by simp, .code hz ha, hb⟩
      · rcases post' with _ | ⟨x, post'⟩
        · simp only [List.append_nil] at h1
          simp only [List.nil_append] at h2
          obtain ⟨a, b, rfl, ha, hb⟩ := ih (pre := []) h2.symm
          refine ⟨cs ++ a, b, by simp, ?_, hb⟩
          rw [← h1]
          have := Emits.code hz ha
          rwa [List.append_nil] at this
        · simp only [List.cons_append, List.cons.injEq] at h2
          obtain ⟨rfl, rfl⟩ := h2
          have h3 := h1
          rw [List.map_eq_append_iff] at h3
          obtain ⟨z1, z2, rfl, e1, e2⟩ := h3
          rw [List.map_eq_cons_iff] at e2
          obtain ⟨w, z3, rfl, e3, e4⟩ := e2
          cases e3
          rw [emit_label] at hz
          simp only [Option.bind_eq_some_iff, Option.map_eq_some_iff] at hz
          obtain ⟨a, ha, b, hb, rfl⟩ := hz
          refine ⟨a, b ++ ds, by simp, ?_, ?_⟩
          · rw [← e1]
            have := Emits.code ha .nil
            simpa using this
          · rw [← e4]; exact .code hb h
  | @stop T ds h ih =>
      rcases pre with _ | ⟨x, pre⟩
      · simp at he
      · simp only [List.cons_append, List.cons.injEq] at he
        obtain ⟨rfl, he⟩ := he
        obtain ⟨a, b, rfl, ha, hb⟩ := ih he
        exact ⟨o Opc.STOP :: a, b, rfl, .stop ha, hb⟩

theorem runCalls_append {same} (a b : List Call) (st : St) :
    runCalls same (a ++ b) st = (runCalls same a st).bind (runCalls same b) := by
  induction a generalizing st with
  | nil => rfl
  | cons c a ih =>
      simp only [List.cons_append, runCalls]
      cases c.run same st with
      | none => rfl
      | some st' => exact ih st'

/-- A label is where it was defined. -/
theorem defPos_eq {same : SC → SC → Bool} {buf : List Nat} {a b : List Call} {l : Nat} {st : St}
    (hbuf : 0 < buf.length)
    (h : runCalls same (a ++ .define l :: b) (St.init buf) = some st) :
    defPos l 0 (a ++ .define l :: b) = some (sizeOf a) := by
  rw [runCalls_append, Option.bind_eq_some_iff] at h
  obtain ⟨st1, h1, h2⟩ := h
  simp only [runCalls, Option.bind_eq_some_iff] at h2
  obtain ⟨st2, h2, _⟩ := h2
  have := (run_layout hbuf h1).define l st2 h2
  rw [defPos_append, this.1]
  simp [defPos, Call.defines]

theorem defPos_le {l p : Nat} {cs : List Call} {d : Nat} (h : defPos l p cs = some d) :
    d ≤ p + sizeOf cs := by
  induction cs generalizing p with
  | nil => cases h
  | cons c cs ih =>
      simp only [defPos] at h
      simp only [sizeOf]
      split at h
      · injection h with h; omega
      · have := ih h; omega

/-- The conditions under which code decodes are met. -/
theorem goodAt_of {D : Nat → Option Nat} {S : Nat → Nat} {RG : Nat → Glob → Prop}
    {cs : List Call} {p N : Nat} (hb : BackOk p cs)
    (hl : ∀ l ∈ cs.flatMap Call.labels, ∃ d, D l = some d ∧ d ≤ N)
    (hN : p + sizeOf cs ≤ N) (hN2 : N < 2147483648)
    (hg : ∀ q g, globAt p cs q = some g → RG (S q) g ∧
      (g.wide = true → S q < 4294967296) ∧ (g.wide = false → S q < 65536)) :
    GoodAt D S RG p cs := by
  induction cs generalizing p with
  | nil => trivial
  | cons c cs ih =>
      simp only [sizeOf] at hN
      refine ⟨?_, ih hb.2 (fun l h => hl l (by simp [List.flatMap_cons, List.mem_append]; right; simpa using h))
        (by omega) (fun q g h => hg q g (globAt_cons_tail h))⟩
      have hb1 := hb.1
      have hgp : ∀ g, c.glob = [g] → RG (S p) g ∧
          (g.wide = true → S p < 4294967296) ∧ (g.wide = false → S p < 65536) := by
        intro g hcg
        exact hg p g (by simp [globAt, hcg])
      cases c with
      | label back l =>
          obtain ⟨d, h1, h2⟩ := hl l (by simp [Call.labels])
          simp only at hb1
          refine ⟨hb1, d, h1, ?_, ?_⟩ <;> omega
      | slotLit c => obtain ⟨h1, h2, _⟩ := hgp _ rfl; exact ⟨h2 rfl, h1⟩
      | slotGet c => obtain ⟨h1, h2, _⟩ := hgp _ rfl; exact ⟨h2 rfl, h1⟩
      | slotSet c => obtain ⟨h1, h2, _⟩ := hgp _ rfl; exact ⟨h2 rfl, h1⟩
      | slotPrim c => obtain ⟨h1, _, h2⟩ := hgp _ rfl; exact ⟨h2 rfl, h1⟩
      | _ => trivial

/-- The globals that a text defines. -/
def Glob.set? : Glob → Option Uid
  | .set u => some u
  | _ => none

theorem setsOf_relocs (p : Nat) (cs : List Call) :
    setsOf (relocsOf p cs) = (cs.flatMap Call.glob).filterMap Glob.set? := by
  induction cs generalizing p with
  | nil => rfl
  | cons c cs ih =>
      simp only [relocsOf, setsOf, List.filterMap_append, List.flatMap_cons]
      congr 1
      · cases c <;> rfl
      · exact ih _

/-- Decoded actions are the prescribed ones, when labels stand for the addresses `D`. -/
abbrev Matches (same : SC → SC → Bool) (lk : Lk) (D : Nat → Nat) (raws : List Raw)
    (ops : List (Op Nat Glob)) : Prop :=
  List.Forall₂ (Op.Agrees (fun (t : Int) l => t = (D l : Int)) (lk.Den same)) raws ops

/-- The bytes `code` are the text `T`: decoding them gives the prescribed actions, and
each label is an address at which the code divides into what precedes the label in the
text and what follows it. -/
def Assembled (same : SC → SC → Bool) (T : Text) (code : List Nat) (lk : Lk) : Prop :=
  ∃ D : Nat → Nat,
    (∃ raws, Decodes 0 code raws code.length [] ∧ Matches same lk D raws (T.flatMap itemOps)) ∧
    ∀ pre l post, T = pre ++ some (.label l) :: post →
      ∃ r1 r2, Decodes 0 code r1 (D l) (code.drop (D l)) ∧
        Decodes (D l) (code.drop (D l)) r2 code.length [] ∧
        Matches same lk D r1 (pre.flatMap itemOps) ∧ Matches same lk D r2 (post.flatMap itemOps)

theorem matches_of {same : SC → SC → Bool} {lk : Lk} {D : Nat → Option Nat} {raws ops}
    (h : AgreeAll D (lk.Den same) raws ops) :
    Matches same lk (fun l => (D l).getD 0) raws ops := by
  refine List.Forall₂.imp ?_ h
  rintro a b ⟨h1, h2, h3, h4⟩
  refine ⟨h1, h2, h3.imp ?_, h4⟩
  rintro t l ⟨d, hd, rfl⟩
  simp only [hd, Option.getD_some]

theorem assembled {same : SC → SC → Bool} {T : Text} {cs : List Call} {buf : List Nat} {st : St}
    {lk lk' : Lk} {lits : List (SC × List Nat)} {pre suf out : List Nat}
    (hT : Emits T cs) (hbuf : 0 < buf.length) (hrun : runCalls same cs (St.init buf) = some st)
    (hw : ∀ z, some z ∈ T → z.Wf)
    (hdef : ∀ op ∈ T.flatMap itemOps, ∀ l ∈ op.labels, some (Zam.label l) ∈ T)
    (hlen : st.pos < 2147483648)
    (hb : lk.Bounded)
    (hnd : (((T.flatMap itemOps).flatMap Op.globs).filterMap Glob.set?).Nodup)
    (hfresh : ∀ u ∈ ((T.flatMap itemOps).flatMap Op.globs).filterMap Glob.set?,
      lk.lookup u = none)
    (hl : lits.Perm st.lits)
    (hlink : patchObject (pre ++ (st.buf.take st.pos ++ suf)) pre.length lits
      st.relocs.reverse lk = some (out, lk'))
    (hcnt : lk'.cnt ≤ 4294967296) :
    lk.Le lk' ∧ ∃ code, out = pre ++ (code ++ suf) ∧ code.length = st.pos ∧
      Assembled same T code lk' := by
  have hI := run_layout hbuf hrun
  have hLab := hT.lab
  set D : Nat → Option Nat := fun l => defPos l 0 cs with hD
  have hsets : setsOf (relocsOf 0 cs) =
      ((T.flatMap itemOps).flatMap Op.globs).filterMap Glob.set? := by
    rw [setsOf_relocs, hLab.2.2]
  have hrel : st.relocs.reverse = relocsOf 0 cs := by rw [hI.relocs, List.reverse_reverse]
  rw [hI.bytes, hrel] at hlink
  rw [← hsets] at hnd hfresh
  rw [hI.lits] at hl
  obtain ⟨hle, S, hS⟩ := link_layout hb hl hnd hfresh hlink
  refine ⟨hle, render D S 0 cs, hS.buf, ?_, ?_⟩
  · rw [render_length, hI.pos]
  have hpos := hI.pos
  have hat : ∀ pre l post, T = pre ++ some (.label l) :: post →
      ∃ a b, cs = a ++ .define l :: b ∧ Emits pre a ∧ Emits post b ∧ D l = some (sizeOf a) := by
    intro pre l post he
    obtain ⟨a, b, hcs, ha, hb⟩ := hT.split he
    refine ⟨a, b, hcs, ha, hb, ?_⟩
    simp only [hD]
    rw [hcs] at hrun ⊢
    exact defPos_eq hbuf hrun
  have hlabels : ∀ l ∈ cs.flatMap Call.labels, ∃ d, D l = some d ∧ d ≤ st.pos := by
    intro l hl
    rw [hLab.2.1, List.mem_flatMap] at hl
    obtain ⟨op, h1, h2⟩ := hl
    obtain ⟨p, q, e⟩ := List.append_of_mem (hdef op h1 l h2)
    obtain ⟨a, b, hcs, _, _, hd⟩ := hat p l q e
    refine ⟨_, hd, ?_⟩
    rw [hpos, hcs, sizeOf_append]; omega
  have hgood : GoodAt D S (lk'.Den same) 0 cs := by
    refine goodAt_of (N := st.pos) hLab.1 hlabels (by omega) hlen ?_
    intro q g hg
    obtain ⟨h1, h2, h3⟩ := hS.den q g ⟨g, hg⟩ hg
    exact ⟨h1, fun h => lt_of_lt_of_le (h2 h) hcnt, h3⟩
  refine ⟨fun l => (D l).getD 0, ?_, ?_⟩
  · obtain ⟨raws, h1, h2⟩ := hT.chunk hw D S (lk'.Den same) 0 [] hgood
    rw [List.append_nil, Nat.zero_add] at h1
    refine ⟨raws, ?_, matches_of h2⟩
    rw [render_length]; exact h1
  · intro p l q he
    obtain ⟨a, b, hcs, ha, hb, hd⟩ := hat p l q he
    rw [hcs, goodAt_append] at hgood
    obtain ⟨g1, _, g2⟩ := hgood
    simp only [Call.size, Nat.add_zero, Nat.zero_add] at g2
    have hr : render D S 0 cs = render D S 0 a ++ render D S (sizeOf a) b := by
      rw [hcs, render_append, Nat.zero_add]
      simp [render, Call.bytes, Call.size]
    obtain ⟨r1, d1, m1⟩ := ha.chunk (fun z hz => hw z (by rw [he]; simp [hz])) D S _ 0
      (render D S (sizeOf a) b) g1
    obtain ⟨r2, d2, m2⟩ := hb.chunk (fun z hz => hw z (by rw [he]; simp [hz])) D S _ (sizeOf a)
      [] g2
    have hdrop : (render D S 0 cs).drop (sizeOf a) = render D S (sizeOf a) b := by
      rw [hr, List.drop_left' (render_length _ _ _ _)]
    refine ⟨r1, r2, ?_, ?_, matches_of m1, matches_of m2⟩
    · simp only [hd, Option.getD_some]
      rw [hdrop, hr]
      rw [Nat.zero_add] at d1
      exact d1
    · simp only [hd, Option.getD_some]
      rw [hdrop, hr, List.length_append, render_length, render_length]
      rw [List.append_nil] at d2
      exact d2

end Mosml.Emit
