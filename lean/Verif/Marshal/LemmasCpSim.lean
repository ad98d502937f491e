import Verif.Marshal.LemmasCpItems
import Mathlib.Data.List.Zip

/-! The compact format: reading follows writing. -/
namespace Mosml.Marshal

/-- the correspondence given by the writer's and the reader's tables -/
def cor (K O : List Nat) (a : Nat) : Option Nat := lookupTab (K.zip O) a

/-- the object at `b` in `mem` is a copy of the object at `a` in `m` -/
structure ObjOk (base : Nat) (m mem : Mem) (φ : Nat → Option Nat) (a b : Nat) : Prop where
  tag : tag 8 mem b = tag 8 m a
  size : size 8 mem b = size 8 m a
  strs : Marshal.tag 8 m a = stringTag → strBytes 8 .little mem b = strBytes 8 .little m a
  dbls : Marshal.tag 8 m a = doubleTag → dblBits 8 .little mem b = dblBits 8 .little m a
  blks : Marshal.tag 8 m a ≠ stringTag → Marshal.tag 8 m a ≠ doubleTag →
    ∀ i, i < Marshal.size 8 m a → Rel 8 base m φ (m (a + 8 * i)) (mem (b + 8 * i))

theorem Rel.mono {base : Nat} {m : Mem} {φ ψ : Nat → Option Nat} (h : ∀ a b, φ a = some b → ψ a = some b) {v w : Nat}
    (hr : Rel 8 base m φ v w) : Rel 8 base m ψ v w := by
  rcases hr with hr | hr | ⟨h1, h2, h3⟩
  · exact .inl hr
  · exact .inr (.inl hr)
  · exact .inr (.inr ⟨h1, h2, h _ _ h3⟩)

theorem ObjOk.mono {base : Nat} {m mem : Mem} {φ ψ : Nat → Option Nat} (h : ∀ a b, φ a = some b → ψ a = some b) {a b : Nat}
    (ho : ObjOk base m mem φ a b) : ObjOk base m mem ψ a b :=
  ⟨ho.tag, ho.size, ho.strs, ho.dbls, fun h1 h2 i hi => (ho.blks h1 h2 i hi).mono h⟩

theorem ObjOk.frame {base : Nat} {m mem mem' : Mem} {φ : Nat → Option Nat} {a b : Nat}
    (ho : ObjOk base m mem φ a b) (h1 : mem' (b - 8) = mem (b - 8))
    (h2 : ∀ i, i < Marshal.size 8 m a → mem' (b + 8 * i) = mem (b + 8 * i)) : ObjOk base m mem' φ a b := by
  have ht : Marshal.tag 8 mem' b = Marshal.tag 8 mem b := by unfold Marshal.tag; rw [h1]
  have hs : Marshal.size 8 mem' b = Marshal.size 8 mem b := by unfold Marshal.size; rw [h1]
  have hb : blockBytes 8 .little mem' b = blockBytes 8 .little mem b := by
    unfold blockBytes
    rw [hs, ho.size]
    congr 1
    apply List.map_congr_left
    intro i hi
    exact h2 i (List.mem_range.1 hi)
  refine ⟨ht.trans ho.tag, hs.trans ho.size, ?_, ?_, ?_⟩
  · intro h; rw [← ho.strs h]; unfold strBytes; rw [hb, hs]
  · intro h; rw [← ho.dbls h]; unfold dblBits; rw [hb]
  · intro h h' i hi; rw [h2 i hi]; exact ho.blks h h' i hi

theorem cor_append {K O N N' : List Nat} (h : O.length = K.length) {a b : Nat} (hc : cor K O a = some b) :
    cor (K ++ N) (O ++ N') a = some b := by
  unfold cor at *
  rw [List.zip_append h.symm]
  exact lookup_append_some hc

theorem cor_new {K O N N' : List Nat} (h : O.length = K.length) {a b : Nat} (ha : a ∉ K) :
    cor (K ++ a :: N) (O ++ b :: N') a = some b := by
  unfold cor
  rw [List.zip_append h.symm, lookup_append_none]
  · simp [lookupTab]
  · rw [lookup_none_iff, List.map_fst_zip (le_of_eq h.symm)]; exact ha

theorem lookup_zipIdx : ∀ (K O : List Nat) (s v i : Nat), O.length = K.length →
    lookupTab (K.zipIdx s) v = some i → s ≤ i ∧ i < s + K.length ∧ cor K O v = O[i - s]?
  | [], _, _, _, _, _, h => by cases h
  | a :: K, [], _, _, _, h, _ => by simp at h
  | a :: K, o :: O, s, v, i, hl, h => by
    rw [List.zipIdx_cons, lookupTab] at h
    unfold cor
    rw [List.zip_cons_cons, lookupTab]
    split_ifs at h ⊢ with q
    · cases h; simp
    · obtain ⟨h1, h2, h3⟩ := lookup_zipIdx K O (s + 1) v i (by simpa using hl) h
      refine ⟨by omega, by simp; omega, ?_⟩
      unfold cor at h3
      rw [h3, show i - s = (i - (s + 1)) + 1 by omega, List.getElem?_cons_succ]

theorem lookup_zipIdx_none {K : List Nat} {s v : Nat} (h : lookupTab (K.zipIdx s) v = none) : v ∉ K := by
  rw [lookup_none_iff, List.zipIdx_map_fst] at h; exact h

theorem zipIdx_snoc (K : List Nat) (v : Nat) : K.zipIdx ++ [(v, K.length)] = (K ++ [v]).zipIdx := by
  rw [List.zipIdx_append]; simp

theorem upds_below : ∀ (ws : List Nat) (mem : Mem) (p a : Nat), a < p → upds mem p ws a = mem a
  | [], _, _, _, _ => rfl
  | w :: ws, mem, p, a, h => by
    rw [upds, upds_below ws _ _ _ (by omega)]; unfold upd; rw [if_neg (by omega)]

theorem upds_above : ∀ (ws : List Nat) (mem : Mem) (p a : Nat), p + 8 * ws.length ≤ a → upds mem p ws a = mem a
  | [], _, _, _, _ => rfl
  | w :: ws, mem, p, a, h => by
    simp only [List.length_cons] at h
    rw [upds, upds_above ws _ _ _ (by omega)]; unfold upd; rw [if_neg (by omega)]

theorem upds_at : ∀ (ws : List Nat) (mem : Mem) (p i : Nat), i < ws.length → upds mem p ws (p + 8 * i) = ws.getD i 0
  | [], _, _, _, h => by simp at h
  | w :: ws, mem, p, 0, h => by
    rw [upds, upds_below _ _ _ _ (by omega)]; simp [upd]
  | w :: ws, mem, p, i + 1, h => by
    rw [upds, show p + 8 * (i + 1) = p + 8 + 8 * i by ring, upds_at ws _ _ i (by simpa using h)]; simp

theorem upd_same (mem : Mem) (a w : Nat) : upd mem a w a = w := if_pos rfl
theorem upd_other {mem : Mem} {a w x : Nat} (h : x ≠ a) : upd mem a w x = mem x := if_neg h

/-- what reading back an item that allocates `k` words and adds `N` to the table must establish -/
structure Post (base : Nat) (m : Mem) (S K O N N' : List Nat) (ptr k : Nat) (mem mem' : Mem) : Prop where
  nodup : (K ++ N).Nodup
  sub : ∀ a ∈ N, a ∈ S
  len : N'.length = N.length
  k_eq : k = total (fun a => size 8 m a + 1) N
  above : ∀ a, ptr + 8 * k ≤ a → mem' a = mem a
  objs : ∀ x ∈ N.zip N', ptr + 8 ≤ x.2 ∧ x.2 + 8 * size 8 m x.1 ≤ ptr + 8 * k ∧
    ObjOk base m mem' (cor (K ++ N) (O ++ N')) x.1 x.2
  dist : N'.Nodup
  inside : ∀ b ∈ N', ptr < b ∧ b < ptr + 8 * k

/-- the bounds of the format -/
structure CpFits (m : Mem) (S : List Nat) : Prop where
  blocks : ∀ a ∈ S, tag 8 m a ≠ stringTag → tag 8 m a ≠ doubleTag → size 8 m a < 2 ^ 22
  strings : ∀ a ∈ S, tag 8 m a = stringTag → size 8 m a ≤ 2 ^ 29
  count : S.length < 2 ^ 32

section
variable {base color : Nat} {m : Mem} {S : List Nat}

/-- the simulation, for one value -/
def SimV (base color : Nat) (m : Mem) (S : List Nat) (f : Nat) : Prop :=
  ∀ (v : Nat) (K O : List Nat) (ptr dest : Nat) (mem : Mem) (out tl : Bytes) (s32 s64 : Nat),
    K.Nodup → (∀ a ∈ K, a ∈ S) → O.length = K.length → S.length < f + K.length →
    (v % 2 = 1 ∨ size 8 m v = 0 ∨ v ∈ S) → v < 2 ^ 64 → dest + 8 ≤ ptr →
    ∃ bs N N' k k32 mem',
      emitCp m f v ⟨out, K.zipIdx, K.length, s32, s64⟩ =
        .ok ⟨out ++ bs, (K ++ N).zipIdx, (K ++ N).length, s32 + k32, s64 + k⟩ ∧
      readCp base color f dest ⟨bs ++ tl, mem, ptr, O⟩ = .ok ⟨tl, mem', ptr + 8 * k, O ++ N'⟩ ∧
      k32 ≤ 2 * k ∧ Post base m S K O N N' ptr k mem mem' ∧
      (∀ a, a < ptr → a ≠ dest → mem' a = mem a) ∧
      Rel 8 base m (cor (K ++ N) (O ++ N')) v (mem' dest)

/-- the simulation, for a list of fields -/
def SimL (base color : Nat) (m : Mem) (S : List Nat) (f : Nat) : Prop :=
  ∀ (vs : List Nat) (K O : List Nat) (ptr dest : Nat) (mem : Mem) (out tl : Bytes) (s32 s64 : Nat),
    K.Nodup → (∀ a ∈ K, a ∈ S) → O.length = K.length → S.length < f + K.length →
    (∀ v ∈ vs, v % 2 = 1 ∨ size 8 m v = 0 ∨ v ∈ S) → (∀ v ∈ vs, v < 2 ^ 64) → dest + 8 * vs.length ≤ ptr →
    ∃ bs N N' k k32 mem',
      emitList (emitCp m f) vs ⟨out, K.zipIdx, K.length, s32, s64⟩ =
        .ok ⟨out ++ bs, (K ++ N).zipIdx, (K ++ N).length, s32 + k32, s64 + k⟩ ∧
      readList (readCp base color f) vs.length dest ⟨bs ++ tl, mem, ptr, O⟩ = .ok ⟨tl, mem', ptr + 8 * k, O ++ N'⟩ ∧
      k32 ≤ 2 * k ∧ Post base m S K O N N' ptr k mem mem' ∧
      (∀ a, a < ptr → (∀ j, j < vs.length → a ≠ dest + 8 * j) → mem' a = mem a) ∧
      ∀ j, j < vs.length → Rel 8 base m (cor (K ++ N) (O ++ N')) (vs.getD j 0) (mem' (dest + 8 * j))

theorem total_append (g : Nat → Nat) : ∀ l l', total g (l ++ l') = total g l + total g l'
  | [], l' => by simp [total]
  | a :: l, l' => by rw [List.cons_append, total, total, total_append g l l']; omega

theorem Post.nil {K O : List Nat} {ptr : Nat} {mem mem' : Mem} (hK : K.Nodup) (h : ∀ a, ptr ≤ a → mem' a = mem a) :
    Post base m S K O [] [] ptr 0 mem mem' :=
  ⟨by simpa using hK, by simp, rfl, rfl, by simpa using h, by simp, by simp, by simp⟩

theorem simL_of_simV {f : Nat} (hV : SimV base color m S f) : SimL base color m S f := by
  intro vs
  induction vs with
  | nil =>
    intro K O ptr dest mem out tl s32 s64 h1 h2 h3 h4 h5 h5' h6
    refine ⟨[], [], [], 0, 0, mem, ?_, ?_, by omega, Post.nil h1 (fun _ _ => rfl), fun _ _ _ => rfl, by simp⟩
    · simp [emitList]
    · simp [readList]
  | cons v vs ih =>
    intro K O ptr dest mem out tl s32 s64 h1 h2 h3 h4 h5 h5' h6
    simp only [List.length_cons] at h6
    -- the second part's bytes are needed to state the first, so get the writer's side first
    obtain ⟨bs1, N1, N1', k1, k32, mem1, e1, -, -, P1, -, -⟩ :=
      hV v K O ptr dest mem out [] s32 s64 h1 h2 h3 h4 (h5 v List.mem_cons_self) (h5' v List.mem_cons_self) (by omega)
    have hK1 : ∀ a ∈ K ++ N1, a ∈ S := by
      intro a ha
      rcases List.mem_append.1 ha with ha | ha
      · exact h2 a ha
      · exact P1.sub a ha
    obtain ⟨bs2, _, _, _, _, _, e2, -⟩ :=
      ih (K ++ N1) (O ++ N1') (ptr + 8 * k1) (dest + 8) mem1 (out ++ bs1) tl (s32 + k32) (s64 + k1)
        P1.nodup hK1 (by simp [h3, P1.len]) (by simp; omega) (fun w hw => h5 w (List.mem_cons_of_mem _ hw)) (fun w hw => h5' w (List.mem_cons_of_mem _ hw)) (by omega)
    clear P1 hK1 mem1
    obtain ⟨bs1', M1, M1', j1, j32, mem1, e1', r1, q1, P1, F1, R1⟩ :=
      hV v K O ptr dest mem out (bs2 ++ tl) s32 s64 h1 h2 h3 h4 (h5 v List.mem_cons_self) (h5' v List.mem_cons_self) (by omega)
    rw [e1] at e1'
    injection e1' with e1'
    injection e1' with u1 u2 u3 u4 u5
    have u1' : bs1 = bs1' := List.append_cancel_left u1
    have u5' : k1 = j1 := by omega
    have u4' : k32 = j32 := by omega
    have u2' : N1 = M1 := by
      have := congrArg (List.map Prod.fst) u2
      rw [List.zipIdx_map_fst, List.zipIdx_map_fst] at this
      exact List.append_cancel_left this
    subst u1' u5' u2' u4'
    have hK1 : ∀ a ∈ K ++ N1, a ∈ S := by
      intro a ha
      rcases List.mem_append.1 ha with ha | ha
      · exact h2 a ha
      · exact P1.sub a ha
    have hlen1 : (O ++ M1').length = (K ++ N1).length := by simp [h3, P1.len]
    obtain ⟨bs2', N2, N2', k2, k32', mem2, e2', r2, q2, P2, F2, R2⟩ :=
      ih (K ++ N1) (O ++ M1') (ptr + 8 * k1) (dest + 8) mem1 (out ++ bs1) tl (s32 + k32) (s64 + k1)
        P1.nodup hK1 hlen1 (by simp; omega) (fun w hw => h5 w (List.mem_cons_of_mem _ hw)) (fun w hw => h5' w (List.mem_cons_of_mem _ hw)) (by omega)
    rw [e2] at e2'
    injection e2' with e2'
    injection e2' with u1 u2 u3 u4 u5
    have u1' : bs2 = bs2' := List.append_cancel_left u1
    subst u1'
    refine ⟨bs1 ++ bs2, N1 ++ N2, M1' ++ N2', k1 + k2, k32 + k32', mem2, ?_, ?_, by omega, ?_, ?_, ?_⟩
    · rw [emitList, e1]
      dsimp only
      rw [e2, u2, u3, u4, u5, List.append_assoc, List.append_assoc, Nat.add_assoc, Nat.add_assoc]
    · rw [List.length_cons, readList, List.append_assoc, r1]
      dsimp only
      rw [r2, List.append_assoc, Nat.mul_add, Nat.add_assoc]
    · refine ⟨by rw [← List.append_assoc]; exact P2.nodup, ?_, ?_, ?_, ?_, ?_, ?_, ?_⟩
      · intro a ha
        rcases List.mem_append.1 ha with ha | ha
        · exact P1.sub a ha
        · exact P2.sub a ha
      · simp [P1.len, P2.len]
      · rw [total_append, P1.k_eq, P2.k_eq]
      · intro a ha
        rw [P2.above a (by omega), P1.above a (by omega)]
      · intro x hx
        rw [List.zip_append P1.len.symm] at hx
        rw [← List.append_assoc, ← List.append_assoc]
        rcases List.mem_append.1 hx with hx | hx
        · obtain ⟨p1, p2, p3⟩ := P1.objs x hx
          refine ⟨p1, by omega, ?_⟩
          refine (p3.mono (fun a b h => cor_append hlen1 h)).frame ?_ ?_
          · exact F2 _ (by omega) (fun j hj => by omega)
          · intro i hi
            exact F2 _ (by omega) (fun j hj => by omega)
        · obtain ⟨p1, p2, p3⟩ := P2.objs x hx
          exact ⟨by omega, by omega, p3⟩
      · rw [List.nodup_append]
        refine ⟨P1.dist, P2.dist, ?_⟩
        intro a ha b hb
        have := P1.inside a ha
        have := P2.inside b hb
        omega
      · intro b hb
        rcases List.mem_append.1 hb with hb | hb
        · have := P1.inside b hb; omega
        · have := P2.inside b hb; omega
    · intro a ha hj
      rw [F2 a (by omega) (fun j hj' => by have := hj (j + 1) (by simp; omega); omega)]
      exact F1 a ha (by have := hj 0 (by simp); omega)
    · intro j hj
      rw [← List.append_assoc, ← List.append_assoc]
      cases j with
      | zero =>
        rw [Nat.mul_zero, Nat.add_zero, List.getD_cons_zero, F2 dest (by omega) (fun j hj => by omega)]
        exact R1.mono (fun a b h => cor_append hlen1 h)
      | succ j =>
        have := R2 j (by simpa using hj)
        rw [List.getD_cons_succ, show dest + 8 * (j + 1) = dest + 8 + 8 * j by ring]
        exact this

theorem size_eq (m : Mem) (v : Nat) : wosizeHd (m (v - 8)) = size 8 m v := rfl
theorem tag_eq (m : Mem) (v : Nat) : tagHd (m (v - 8)) = tag 8 m v := rfl

/-- a single new object, without children -/
theorem Post.single {K O : List Nat} {ptr v : Nat} {mem mem' : Mem} (hK : K.Nodup) (hv : v ∉ K) (hS : v ∈ S)
    (hsz : size 8 m v ≠ 0)
    (ha : ∀ a, ptr + 8 * (size 8 m v + 1) ≤ a → mem' a = mem a)
    (ho : ∀ φ, ObjOk base m mem' φ v (ptr + 8)) :
    Post base m S K O [v] [ptr + 8] ptr (size 8 m v + 1) mem mem' := by
  refine ⟨?_, by simpa using hS, rfl, by simp [total], ha, ?_, by simp,
    by intro b hb; rw [List.mem_singleton] at hb; omega⟩
  · rw [List.nodup_append]
    refine ⟨hK, by simp, ?_⟩
    intro a h b hb
    rw [List.mem_singleton] at hb
    subst hb
    intro h'; subst h'; exact hv h
  · intro x hx
    simp only [List.zip_cons_cons, List.zip_nil_right, List.mem_singleton] at hx
    subst hx
    exact ⟨le_rfl, by dsimp only; omega, ho _⟩

theorem cpChars_eq (m : Mem) (v : Nat) : cpChars m v (size 8 m v) = strBytes 8 .little m v := by
  unfold cpChars bytesAt strBytes
  rw [blockBytes_eq]
  rfl

theorem length_blockBytes (m : Mem) (v : Nat) : (blockBytes 8 .little m v).length = size 8 m v * 8 := by
  rw [blockBytes_eq, length_flat_bytes, length_fields]

theorem fields_upds {mem : Mem} {p n : Nat} {hd : Nat} {ws : List Nat} {dest w : Nat} (hd' : dest < p) (hn : ws.length = n) :
    fields 8 (upd (upds mem p (hd :: ws)) dest w) (p + 8) n = ws := by
  rw [fields_eq]
  apply List.ext_getElem
  · simp [hn]
  · intro i h1 h2
    simp only [List.getElem_map, List.getElem_range]
    rw [upd_other (by omega), show p + 8 + 8 * i = p + 8 * (i + 1) by ring, upds_at _ _ _ _ (by simp; omega),
      List.getD_cons_succ, List.getD_eq_getElem _ _ h2]

theorem simV (hG : ∀ a, m a < 2 ^ 64) (hd : ∀ a ∈ S, tag 8 m a < closureTag ∨ tag 8 m a = 250 ∨ tag 8 m a = stringTag ∨ tag 8 m a = doubleTag)
    (hne : ∀ a ∈ S, size 8 m a ≠ 0) (hev : ∀ a ∈ S, a % 2 = 0)
    (hst : ∀ a ∈ S, tag 8 m a = stringTag → (blockBytes 8 .little m a).getD (size 8 m a * 8 - 1) 0 < 8)
    (hdb : ∀ a ∈ S, tag 8 m a = doubleTag → size 8 m a = 1)
    (hcl : ∀ a ∈ S, tag 8 m a ≠ stringTag → tag 8 m a ≠ doubleTag → ∀ i, i < size 8 m a →
      m (a + 8 * i) % 2 = 1 ∨ size 8 m (m (a + 8 * i)) = 0 ∨ m (a + 8 * i) ∈ S)
    (hF : CpFits m S) (hc : color < 1024) (hc' : color % 256 = 0) : ∀ f, SimV base color m S f
  | 0 => by
    intro v K O ptr dest mem out tl s32 s64 h1 h2 h3 h4
    exfalso
    have := List.Subperm.length_le (List.subperm_of_subset h1 h2)
    omega
  | f + 1 => by
    have ihL := simL_of_simV (simV hG hd hne hev hst hdb hcl hF hc hc' f)
    intro v K O ptr dest mem out tl s32 s64 h1 h2 h3 h4 h5 h5' h6
    have hKS := List.Subperm.length_le (List.subperm_of_subset h1 h2)
    by_cases hodd : v % 2 = 1
    · refine ⟨cpInt (longVal v), [], [], 0, 0, upd mem dest v, ?_, ?_, by omega,
        Post.nil h1 (fun a ha => upd_other (by omega)), fun a _ ha => upd_other ha, ?_⟩
      · rw [emitCp, if_pos hodd]; simp
      · rw [read_int _ _ _ _ _ _ _ _ h5' hodd]; simp
      · rw [upd_same]; exact .inl ⟨hodd, by simp [widen]⟩
    rw [emitCp, if_neg hodd]
    dsimp only
    rw [size_eq, tag_eq]
    have htag := tag_lt 8 m v
    by_cases hz : size 8 m v = 0
    · have hhd : m (v - 8) < 2 ^ 32 := by
        have : wosizeHd (m (v - 8)) = 0 := hz
        unfold wosizeHd at this; omega
      refine ⟨cpHeader (m (v - 8)), [], [], 0, 0, upd mem dest (atomAddr base (tag 8 m v)), ?_, ?_, by omega,
        Post.nil h1 (fun a ha => upd_other (by omega)), fun a _ ha => upd_other ha, ?_⟩
      · rw [if_pos hz]
        unfold cpHeader
        rw [tag_eq, size_eq, hz]
        simp
      · rw [read_header _ _ _ _ _ _ _ _ hhd]
        unfold readBlock
        rw [size_eq, if_pos hz, tag_eq]; simp
      · rw [upd_same]; exact .inr (.inl ⟨by omega, hz, rfl⟩)
    rw [if_neg hz]
    have hS : v ∈ S := by tauto
    cases hl : lookupTab K.zipIdx v with
    | some i =>
      obtain ⟨-, q2, q3⟩ := lookup_zipIdx K O 0 v i h3 hl
      have hcnt := hF.count
      refine ⟨cpShared (K.length - i), [], [], 0, 0, upd mem dest (O.getD i 0), ?_, ?_, by omega,
        Post.nil h1 (fun a ha => upd_other (by omega)), fun a _ ha => upd_other ha, ?_⟩
      · simp
      · rw [read_shared _ _ _ _ _ _ _ _ (by omega), h3, show K.length - (K.length - i) = i by omega]; simp
      · rw [upd_same]
        refine .inr (.inr ⟨by omega, hz, ?_⟩)
        rw [List.append_nil, List.append_nil, q3, Nat.sub_zero, List.getD_eq_getElem?_getD]
        rw [List.getElem?_eq_getElem (by omega)]
        rfl
    | none =>
      have hvK := lookup_zipIdx_none hl
      dsimp only
      rw [zipIdx_snoc]
      by_cases ht1 : tag 8 m v = stringTag
      · -- string
        rw [if_pos ht1, cpChars_eq]
        have hpad := hst v hS ht1
        have hbl := length_blockBytes m v
        have hlen : (strBytes 8 .little m v).length =
            size 8 m v * 8 - 1 - (blockBytes 8 .little m v).getD (size 8 m v * 8 - 1) 0 := by
          unfold strBytes
          rw [List.length_take, hbl]; omega
        obtain ⟨s, hs⟩ : ∃ s, s = strBytes 8 .little m v := ⟨_, rfl⟩
        rw [← hs] at hlen ⊢
        obtain ⟨pad, hp⟩ : ∃ pad, pad = (blockBytes 8 .little m v).getD (size 8 m v * 8 - 1) 0 := ⟨_, rfl⟩
        rw [← hp] at hlen hpad
        obtain ⟨n, hn⟩ : ∃ n, n = size 8 m v := ⟨_, rfl⟩
        rw [← hn] at hlen hz
        have hsz : (s.length + 8) / 8 = n := by omega
        have hs29 := hF.strings v hS ht1
        rw [← hn] at hs29
        have hb256 : ∀ b ∈ s, b < 256 := by
          intro b hb
          rw [hs] at hb
          unfold strBytes at hb
          have hb := List.mem_of_mem_take hb
          rw [blockBytes_eq] at hb
          obtain ⟨w, _, hw⟩ := List.mem_flatMap.1 hb
          exact leBytes_lt 8 w b hw
        obtain ⟨ws, hws⟩ : ∃ ws, ws = readWords 8 n (s ++ List.replicate (n * 8 - 1 - s.length) 0 ++ [n * 8 - 1 - s.length]) :=
          ⟨_, rfl⟩
        have hwl : ws.length = n := by rw [hws]; exact length_readWords 8 n _
        have hwb : ws.flatMap (wordBytes .little 8) =
            s ++ List.replicate (n * 8 - 1 - s.length) 0 ++ [n * 8 - 1 - s.length] := by
          rw [hws]
          apply flat_readWords
          · simp only [List.length_append, List.length_replicate, List.length_singleton]; omega
          · intro b hb
            simp only [List.mem_append, List.mem_replicate, List.mem_singleton] at hb
            rcases hb with (hb | hb) | hb
            · exact hb256 b hb
            · omega
            · omega
        refine ⟨cpString s, [v], [ptr + 8], n + 1, 1 + (s.length + 4) / 4,
          upd (upds mem ptr (mkHeader n stringTag color :: ws)) dest (ptr + 8), ?_, ?_, by omega, ?_, ?_, ?_⟩
        · simp only [List.length_append, List.length_singleton, hsz]
          rw [Nat.add_comm 1 n]
        · rw [read_str _ _ _ _ _ _ _ _ (by omega)]
          unfold readString
          dsimp only
          rw [if_neg (by simp), List.take_left, List.drop_left, hsz, ← hws, Nat.add_comm 1 n]
        · rw [hn] at hwl hz hwb ⊢
          refine Post.single h1 hvK hS hz ?_ ?_
          · intro a ha
            rw [upd_other (by omega), upds_above _ _ _ _ (by simp [hwl]; omega)]
          · intro φ
            have hhd : upd (upds mem ptr (mkHeader (size 8 m v) stringTag color :: ws)) dest (ptr + 8) (ptr + 8 - 8) =
                mkHeader (size 8 m v) stringTag color := by
              rw [upd_other (by omega)]
              have := upds_at (mkHeader (size 8 m v) stringTag color :: ws) mem ptr 0 (by simp)
              simpa using this
            have hsz' := size_store (m' := upd (upds mem ptr (mkHeader (size 8 m v) stringTag color :: ws)) dest (ptr + 8))
              (b := ptr + 8) (by decide) hc' hc hhd
            refine ⟨(tag_store (by decide) hc' hhd).trans ht1.symm, hsz', ?_, ?_, ?_⟩
            · intro _
              rw [← hs]
              unfold strBytes
              rw [blockBytes_eq, hsz', fields_upds (by omega) hwl, hwb]
              have hll : (s ++ List.replicate (size 8 m v * 8 - 1 - s.length) 0).length = size 8 m v * 8 - 1 := by
                simp only [List.length_append, List.length_replicate]; omega
              dsimp only
              rw [List.getD_append_right _ _ _ _ (le_of_eq hll), hll, Nat.sub_self, List.getD_cons_zero,
                List.append_assoc, List.take_left']
              omega
            · intro h; rw [ht1] at h; exact absurd h (by decide)
            · intro h; exact absurd ht1 h
        · intro a ha ha'
          rw [upd_other ha', upds_below _ _ _ _ ha]
        · rw [upd_same]
          exact .inr (.inr ⟨by omega, by rw [← hn]; exact hz, cor_new h3 hvK⟩)
      · rw [if_neg ht1]
        by_cases ht2 : tag 8 m v = doubleTag
        · -- real
          rw [if_pos ht2]
          have hsz := hdb v hS ht2
          refine ⟨11 :: (leBytes 8 (m v)).reverse, [v], [ptr + 8], 1 + 1, 3,
            upd (upds mem ptr [mkHeader 1 doubleTag color, m v]) dest (ptr + 8), ?_, ?_, by omega, ?_, ?_, ?_⟩
          · simp
          · rw [read_double _ _ _ _ _ _ _ _ (hG v)]
          · have hP := Post.single (base := base) (m := m) (S := S) (K := K) (O := O) (ptr := ptr) (v := v) (mem := mem)
              (mem' := upd (upds mem ptr [mkHeader 1 doubleTag color, m v]) dest (ptr + 8)) h1 hvK hS hz ?_ ?_
            · rw [hsz] at hP; exact hP
            · intro a ha
              rw [upd_other (by omega), upds_above _ _ _ _ (by simp; omega)]
            · intro φ
              have hhd : upd (upds mem ptr [mkHeader 1 doubleTag color, m v]) dest (ptr + 8) (ptr + 8 - 8) =
                  mkHeader 1 doubleTag color := by
                rw [upd_other (by omega)]
                have := upds_at [mkHeader 1 doubleTag color, m v] mem ptr 0 (by simp)
                simpa using this
              have hsz' := size_store (m' := upd (upds mem ptr [mkHeader 1 doubleTag color, m v]) dest (ptr + 8))
                (b := ptr + 8) (by decide) hc' hc hhd
              refine ⟨(tag_store (by decide) hc' hhd).trans ht2.symm, hsz'.trans hsz.symm, ?_, ?_, ?_⟩
              · intro h; exact absurd h ht1
              · intro _
                unfold dblBits
                rw [blockBytes_eq, blockBytes_eq, hsz', hsz, fields_upds (by omega) (by rfl)]
                rfl
              · intro _ h; exact absurd ht2 h
          · intro a ha ha'
            rw [upd_other ha', upds_below _ _ _ _ ha]
          · rw [upd_same]
            exact .inr (.inr ⟨by omega, hz, cor_new h3 hvK⟩)
        · -- block
          have hdv := hd v hS
          rw [if_neg ht2]
          unfold closureTag stringTag doubleTag at hdv
          have ht1' := ht1
          have ht2' := ht2
          unfold stringTag at ht1'
          unfold doubleTag at ht2'
          rw [if_neg (by unfold abstractTag finalTag; omega), if_neg (by unfold closureTag; omega)]
          have hs22 := hF.blocks v hS ht1 ht2
          have hhd : m (v - 8) < 2 ^ 32 := by
            have : wosizeHd (m (v - 8)) < 2 ^ 22 := hs22
            unfold wosizeHd at this; omega
          have hK1 : (K ++ [v]).Nodup := by
            rw [List.nodup_append]
            refine ⟨h1, by simp, ?_⟩
            intro a h b hb
            rw [List.mem_singleton] at hb
            subst hb
            intro h'; subst h'; exact hvK h
          obtain ⟨bs, N, N', k, k32, mem', e1, r1, q1, P1, F1, R1⟩ :=
            ihL (fields 8 m v (size 8 m v)) (K ++ [v]) (O ++ [ptr + 8]) (ptr + 8 * (1 + size 8 m v)) (ptr + 8)
              (upd (upd mem dest (ptr + 8)) ptr (mkHeader (size 8 m v) (tag 8 m v) color))
              (out ++ cpHeader (m (v - 8))) tl (s32 + (1 + size 8 m v)) (s64 + (1 + size 8 m v)) hK1
              (by
                intro a ha
                rcases List.mem_append.1 ha with ha | ha
                · exact h2 a ha
                · rw [List.mem_singleton] at ha; subst ha; exact hS)
              (by simp [h3]) (by simp; omega)
              (by
                intro w hw
                obtain ⟨i, hi, rfl⟩ := mem_fields.1 hw
                exact hcl v hS ht1 ht2 i hi)
              (by
                intro w hw
                obtain ⟨i, hi, rfl⟩ := mem_fields.1 hw
                exact hG _)
              (by rw [length_fields]; omega)
          rw [length_fields] at r1 F1 R1
          have hKv : K ++ v :: N = K ++ [v] ++ N := by simp
          have hOv : O ++ (ptr + 8) :: N' = O ++ [ptr + 8] ++ N' := by simp
          refine ⟨cpHeader (m (v - 8)) ++ bs, v :: N, (ptr + 8) :: N', 1 + size 8 m v + k, 1 + size 8 m v + k32, mem',
            ?_, ?_, by omega, ?_, ?_, ?_⟩
          · have hlen1 : K.length + 1 = (K ++ [v]).length := by simp
            rw [hlen1, e1, hKv, List.append_assoc out, Nat.add_assoc, Nat.add_assoc]
            simp only [Nat.add_assoc]
          · rw [List.append_assoc, read_header _ _ _ _ _ _ _ _ hhd]
            unfold readBlock
            rw [size_eq, if_neg hz, tag_eq]
            dsimp only
            rw [r1, hOv, Nat.add_assoc, ← Nat.mul_add]
          · refine ⟨by rw [hKv]; exact P1.nodup, ?_, by simp [P1.len], ?_, ?_, ?_, ?_, ?_⟩
            · intro a ha
              rcases List.mem_cons.1 ha with rfl | ha
              · exact hS
              · exact P1.sub a ha
            · rw [total, P1.k_eq]; omega
            · intro a ha
              rw [P1.above a (by omega), upd_other (by omega), upd_other (by omega)]
            · intro x hx
              rw [List.zip_cons_cons, List.mem_cons] at hx
              rw [hKv, hOv]
              rcases hx with rfl | hx
              · refine ⟨le_rfl, by dsimp only; omega, ?_⟩
                have hh : mem' (ptr + 8 - 8) = mkHeader (size 8 m v) (tag 8 m v) color := by
                  rw [show ptr + 8 - 8 = ptr by omega, F1 ptr (by omega) (fun j hj => by omega), upd_same]
                refine ⟨tag_store htag hc' hh, size_store htag hc' hc hh, fun h => absurd h ht1, fun h => absurd h ht2, ?_⟩
                intro _ _ i hi
                have := R1 i hi
                rw [List.getD_eq_getElem?_getD, getElem_fields hi, Option.getD_some] at this
                exact this
              · obtain ⟨p1, p2, p3⟩ := P1.objs x hx
                exact ⟨by omega, by omega, p3⟩
            · rw [List.nodup_cons]
              refine ⟨?_, P1.dist⟩
              intro h
              have := P1.inside _ h
              omega
            · intro b hb
              rcases List.mem_cons.1 hb with rfl | hb
              · omega
              · have := P1.inside b hb; omega
          · intro a ha ha'
            rw [F1 a (by omega) (fun j hj => by omega), upd_other (by omega), upd_other ha']
          · rw [F1 dest (by omega) (fun j hj => by omega), upd_other (by omega), upd_same]
            exact .inr (.inr ⟨by omega, hz, cor_new h3 hvK⟩)

end
end Mosml.Marshal
