import Verif.Lex.Model

/-!
C48: the code that Output.sml emits for the transitions of a state.
-/
namespace Mosml.Lex

/-- Output.sml:54-58: add the position to the list of its move, or a new move in front (Fnlib.sml:102-105: `lookup` finds the first) -/
def enumAdd (mv : Move) (pos : Nat) (env : List (Move × List Nat)) : List (Move × List Nat) :=
  if env.any (fun e => e.1 == mv) then
    let rec upd : List (Move × List Nat) → List (Move × List Nat)
      | [] => []
      | (m, pl) :: rest => if m = mv then (m, pos :: pl) :: rest else (m, pl) :: upd rest
    upd env
  else (mv, [pos]) :: env

/-- Output.sml:50-63: `enum env pos`, without the sort -/
def enumerate : List Move → Nat → List (Move × List Nat) → List (Move × List Nat)
  | [], _, env => env
  | mv :: rest, pos, env => enumerate rest (pos + 1) (enumAdd mv pos env)

/-- Output.sml:86-94 -/
def addToInterv (c : Nat) (acc : List (Nat × Nat)) : List (Nat × Nat) := match acc with
  | [] => [(c, c)]
  | (c1, c2) :: rest => if c + 1 = c1 then (c, c2) :: rest else (c, c) :: acc

/-- Output.sml:96-98 -/
def mkIntervals (cs : List Nat) : List (Nat × Nat) := cs.foldl (fun acc c => addToInterv c acc) []

abbrev Intervs := List (Move × (Nat × Nat)) × List (Move × Nat)

/-- Output.sml:100-107 -/
def addInterv (dest : Move) (c1 c2 : Nat) (acc : Intervs) : Intervs :=
  if c1 > c2 then acc
  else if c2 - c1 ≥ 5 then ((dest, (c1, c2)) :: acc.1, acc.2)
  else addInterv dest (c1 + 1) c2 (acc.1, (dest, c1) :: acc.2)
  termination_by c2 + 1 - c1

/-- Output.sml:109-115 -/
def unzipInterv (trans : List (Move × List Nat)) : Intervs :=
  trans.foldr (fun (dest, chars) acc => (mkIntervals chars).foldr (fun (c1, c2) acc => addInterv dest c1 c2 acc) acc) ([], [])

/-- Output.sml:117-145: what the emitted tests do for the character `c`: the intervals in turn, then the case of the single characters, then the default -/
def dispatch (code : Intervs) (default : Move) (c : Nat) : Move :=
  match code.1.find? (fun x => x.2.1 ≤ c && c ≤ x.2.2) with
  | some x => x.1
  | none => match code.2.find? (fun x => x.2 == c) with
    | some x => x.1
    | none => default

/-! ### properties -/

/-- each character is listed once, under its move -/
structure EnumOk (mvs : List Move) (env : List (Move × List Nat)) : Prop where
  nodup : (env.map Prod.fst).Nodup
  mem : ∀ m c, (∃ pl, (m, pl) ∈ env ∧ c ∈ pl) ↔ mvs[c]? = some m
  moves : ∀ e ∈ env, e.1 ∈ mvs

theorem upd_map (mv : Move) (pos : Nat) (env : List (Move × List Nat)) : (enumAdd.upd mv pos env).map Prod.fst = env.map Prod.fst := by
  induction env with
  | nil => rfl
  | cons e env ih =>
    obtain ⟨m, pl⟩ := e
    simp only [enumAdd.upd]
    split
    · rfl
    · simp [ih]

theorem upd_mem (mv : Move) (pos : Nat) (env : List (Move × List Nat)) (nd : (env.map Prod.fst).Nodup) (h : mv ∈ env.map Prod.fst) (m : Move) (c : Nat) :
    (∃ pl, (m, pl) ∈ enumAdd.upd mv pos env ∧ c ∈ pl) ↔ (∃ pl, (m, pl) ∈ env ∧ c ∈ pl) ∨ (m = mv ∧ c = pos) := by
  induction env with
  | nil => simp at h
  | cons e env ih =>
    obtain ⟨m0, pl0⟩ := e
    simp only [List.map_cons, List.nodup_cons] at nd
    simp only [enumAdd.upd]
    by_cases he : m0 = mv
    · subst he
      simp only [if_true, List.mem_cons, Prod.mk.injEq]
      constructor
      · rintro ⟨pl, ⟨rfl, rfl⟩ | hm, hc⟩
        · rcases List.mem_cons.1 hc with rfl | hc
          · exact .inr ⟨rfl, rfl⟩
          · exact .inl ⟨pl0, .inl ⟨rfl, rfl⟩, hc⟩
        · exact .inl ⟨pl, .inr hm, hc⟩
      · rintro (⟨pl, ⟨rfl, rfl⟩ | hm, hc⟩ | ⟨rfl, rfl⟩)
        · exact ⟨_, .inl ⟨rfl, rfl⟩, by simp [hc]⟩
        · exact ⟨pl, .inr hm, hc⟩
        · exact ⟨_, .inl ⟨rfl, rfl⟩, by simp⟩
    · have h' : mv ∈ env.map Prod.fst := by
        simp only [List.map_cons, List.mem_cons] at h
        exact h.resolve_left (fun e => he e.symm)
      have := ih nd.2 h'
      simp only [he, if_false, List.mem_cons, Prod.mk.injEq]
      constructor
      · rintro ⟨pl, ⟨rfl, rfl⟩ | hm, hc⟩
        · exact .inl ⟨pl, .inl ⟨rfl, rfl⟩, hc⟩
        · rcases this.1 ⟨pl, hm, hc⟩ with ⟨pl', h1, h2⟩ | h1
          · exact .inl ⟨pl', .inr h1, h2⟩
          · exact .inr h1
      · rintro (⟨pl, ⟨rfl, rfl⟩ | hm, hc⟩ | h1)
        · exact ⟨pl, .inl ⟨rfl, rfl⟩, hc⟩
        · obtain ⟨pl', h1, h2⟩ := this.2 (.inl ⟨pl, hm, hc⟩)
          exact ⟨pl', .inr h1, h2⟩
        · obtain ⟨pl', h1, h2⟩ := this.2 (.inr h1)
          exact ⟨pl', .inr h1, h2⟩

theorem enumAdd_ok (mvs : List Move) (mv : Move) (env : List (Move × List Nat)) (h : EnumOk mvs env) : EnumOk (mvs ++ [mv]) (enumAdd mv mvs.length env) := by
  have key : ∀ (m : Move) (c : Nat), (mvs ++ [mv])[c]? = some m ↔ mvs[c]? = some m ∨ (m = mv ∧ c = mvs.length) := by
    intro m c
    rw [List.getElem?_append]
    split
    · rename_i hlt
      have : c ≠ mvs.length := by omega
      simp [this]
    · rename_i hlt
      rw [List.getElem?_eq_none (by omega : mvs.length ≤ c)]
      by_cases e : c = mvs.length
      · subst e; simp [eq_comm]
      · simp only [e, and_false, or_false, reduceCtorEq, iff_false]
        rw [List.getElem?_eq_none]; simp
        simp; omega
  unfold enumAdd
  split
  · rename_i ha
    have hm : mv ∈ env.map Prod.fst := by
      simp only [List.any_eq_true, beq_iff_eq] at ha
      obtain ⟨e, he, rfl⟩ := ha
      exact List.mem_map_of_mem he
    refine { nodup := by rw [upd_map]; exact h.nodup, mem := fun m c => ?_, moves := fun e he => ?_ }
    · rw [upd_mem mv _ env h.nodup hm, h.mem, key]
    · have : e.1 ∈ env.map Prod.fst := by rw [← upd_map mv mvs.length]; exact List.mem_map_of_mem he
      obtain ⟨e', he', e2⟩ := List.mem_map.1 this
      rw [← e2]; exact List.mem_append_left _ (h.moves e' he')
  · rename_i ha
    have hm : mv ∉ env.map Prod.fst := by
      intro hm
      obtain ⟨e, he, rfl⟩ := List.mem_map.1 hm
      apply ha
      simp only [List.any_eq_true, beq_iff_eq]
      exact ⟨e, he, rfl⟩
    refine { nodup := by rw [List.map_cons, List.nodup_cons]; exact ⟨hm, h.nodup⟩, mem := fun m c => ?_, moves := fun e he => ?_ }
    · rw [key, ← h.mem]
      simp only [List.mem_cons, Prod.mk.injEq]
      constructor
      · rintro ⟨pl, ⟨rfl, rfl⟩ | h1, hc⟩
        · exact .inr ⟨rfl, by simpa using hc⟩
        · exact .inl ⟨pl, h1, hc⟩
      · rintro (⟨pl, h1, hc⟩ | ⟨rfl, rfl⟩)
        · exact ⟨pl, .inr h1, hc⟩
        · exact ⟨_, .inl ⟨rfl, rfl⟩, by simp⟩
    · rcases List.mem_cons.1 he with rfl | he
      · simp
      · exact List.mem_append_left _ (h.moves e he)

theorem enumerate_ok (mvs : List Move) : EnumOk mvs (enumerate mvs 0 []) := by
  suffices h : ∀ (rest done : List Move) env, EnumOk done env → EnumOk (done ++ rest) (enumerate rest done.length env) from
    h mvs [] [] { nodup := by simp, mem := by simp, moves := by simp }
  intro rest
  induction rest with
  | nil => intro done env h; simpa [enumerate] using h
  | cons mv rest ih =>
    intro done env h
    have := ih (done ++ [mv]) _ (enumAdd_ok done mv env h)
    simpa [enumerate] using this

theorem mem_mkIntervals (cs : List Nat) (c : Nat) : (∃ i ∈ mkIntervals cs, i.1 ≤ c ∧ c ≤ i.2) ↔ c ∈ cs := by
  unfold mkIntervals
  suffices h : ∀ acc : List (Nat × Nat), (∀ i ∈ acc, i.1 ≤ i.2) → ((∃ i ∈ cs.foldl (fun acc c => addToInterv c acc) acc, i.1 ≤ c ∧ c ≤ i.2) ↔
      (∃ i ∈ acc, i.1 ≤ c ∧ c ≤ i.2) ∨ c ∈ cs) by
    have := h [] (by simp)
    simpa using this
  induction cs with
  | nil => simp
  | cons d cs ih =>
    intro acc hacc
    have h1 : ∀ i ∈ addToInterv d acc, i.1 ≤ i.2 := by
      unfold addToInterv
      split
      · simp
      · rename_i c1 c2 rest
        have := hacc (c1, c2) (by simp)
        simp only at this
        split
        · simp only [List.mem_cons, forall_eq_or_imp]
          exact ⟨by omega, fun i hi => hacc i (by simp [hi])⟩
        · simp only [List.mem_cons, forall_eq_or_imp]
          exact ⟨le_refl _, this, fun i hi => hacc i (by simp [hi])⟩
    have h2 : (∃ i ∈ addToInterv d acc, i.1 ≤ c ∧ c ≤ i.2) ↔ (∃ i ∈ acc, i.1 ≤ c ∧ c ≤ i.2) ∨ c = d := by
      unfold addToInterv
      split
      · simp; omega
      · rename_i c1 c2 rest
        have := hacc (c1, c2) (by simp)
        simp only at this
        split
        · simp only [List.mem_cons, exists_eq_or_imp]
          constructor
          · rintro (h | h)
            · by_cases e : c = d
              · exact .inr e
              · exact .inl (.inl (by omega))
            · exact .inl (.inr h)
          · rintro ((h | h) | h)
            · exact .inl (by omega)
            · exact .inr h
            · exact .inl (by omega)
        · simp only [List.mem_cons, exists_eq_or_imp]
          constructor
          · rintro (h | h)
            · exact .inr (by omega)
            · exact .inl h
          · rintro (h | h)
            · exact .inr h
            · exact .inl (by omega)
    rw [List.foldl_cons, ih _ h1, h2, List.mem_cons, or_assoc]

/-- the emitted tests send the character `c` to `m` -/
def Covers (code : Intervs) (m : Move) (c : Nat) : Prop := (∃ x ∈ code.1, x.1 = m ∧ x.2.1 ≤ c ∧ c ≤ x.2.2) ∨ (m, c) ∈ code.2

theorem covers_addInterv (dest : Move) (c1 c2 : Nat) (acc : Intervs) (m : Move) (c : Nat) :
    Covers (addInterv dest c1 c2 acc) m c ↔ Covers acc m c ∨ (m = dest ∧ c1 ≤ c ∧ c ≤ c2) := by
  fun_induction addInterv dest c1 c2 acc with
  | case1 c1 acc h =>
    constructor
    · exact .inl
    · rintro (h' | h')
      · exact h'
      · omega
  | case2 c1 acc h1 h2 =>
    simp only [Covers, List.mem_cons, exists_eq_or_imp]
    constructor
    · rintro ((⟨rfl, h⟩ | h) | h)
      · exact .inr ⟨rfl, h⟩
      · exact .inl (.inl h)
      · exact .inl (.inr h)
    · rintro ((h | h) | ⟨rfl, h⟩)
      · exact .inl (.inr h)
      · exact .inr h
      · exact .inl (.inl ⟨rfl, h⟩)
  | case3 c1 acc h1 h2 ih =>
    rw [ih]
    simp only [Covers, List.mem_cons, Prod.mk.injEq]
    constructor
    · rintro ((h | ⟨rfl, rfl⟩ | h) | ⟨rfl, h⟩)
      · exact .inl (.inl h)
      · exact .inr ⟨rfl, by omega⟩
      · exact .inl (.inr h)
      · exact .inr ⟨rfl, by omega⟩
    · rintro ((h | h) | ⟨rfl, h⟩)
      · exact .inl (.inl h)
      · exact .inl (.inr (.inr h))
      · by_cases e : c = c1
        · exact .inl (.inr (.inl ⟨rfl, e⟩))
        · exact .inr ⟨rfl, by omega⟩

theorem covers_unzip (trans : List (Move × List Nat)) (m : Move) (c : Nat) : Covers (unzipInterv trans) m c ↔ ∃ pl, (m, pl) ∈ trans ∧ c ∈ pl := by
  unfold unzipInterv
  induction trans with
  | nil => simp [Covers]
  | cons e trans ih =>
    obtain ⟨dest, chars⟩ := e
    rw [List.foldr_cons]
    have step : ∀ (l : List (Nat × Nat)) (acc : Intervs), Covers (l.foldr (fun (c1, c2) acc => addInterv dest c1 c2 acc) acc) m c ↔
        Covers acc m c ∨ (m = dest ∧ ∃ i ∈ l, i.1 ≤ c ∧ c ≤ i.2) := by
      intro l acc
      induction l with
      | nil => simp
      | cons i l ih => 
        rw [List.foldr_cons, covers_addInterv, ih]
        simp only [List.mem_cons, exists_eq_or_imp]
        constructor
        · rintro ((h | ⟨h1, h2⟩) | ⟨h1, h2⟩)
          · exact .inl h
          · exact .inr ⟨h1, .inr h2⟩
          · exact .inr ⟨h1, .inl h2⟩
        · rintro (h | ⟨h1, h2 | h2⟩)
          · exact .inl (.inl h)
          · exact .inr ⟨h1, h2⟩
          · exact .inl (.inr ⟨h1, h2⟩)
    rw [step, ih, mem_mkIntervals]
    simp only [List.mem_cons, Prod.mk.injEq]
    constructor
    · rintro (⟨pl, h1, h2⟩ | ⟨rfl, h⟩)
      · exact ⟨pl, .inr h1, h2⟩
      · exact ⟨chars, .inl ⟨rfl, rfl⟩, h⟩
    · rintro ⟨pl, ⟨rfl, rfl⟩ | h1, h2⟩
      · exact .inr ⟨rfl, h2⟩
      · exact .inl ⟨pl, h1, h2⟩

theorem dispatch_covers (code : Intervs) (default : Move) (c : Nat) : Covers code (dispatch code default c) c ∨ (dispatch code default c = default ∧ ∀ m, ¬ Covers code m c) := by
  unfold dispatch
  cases h1 : code.1.find? (fun x => x.2.1 ≤ c && c ≤ x.2.2) with
  | some x =>
    left; left
    have := List.find?_some h1
    simp only [Bool.and_eq_true, decide_eq_true_eq] at this
    exact ⟨x, List.mem_of_find?_eq_some h1, rfl, this⟩
  | none =>
    rw [List.find?_eq_none] at h1
    cases h2 : code.2.find? (fun x => x.2 == c) with
    | some x =>
      left; right
      have := List.find?_some h2
      simp only [beq_iff_eq] at this
      rw [← this]
      exact List.mem_of_find?_eq_some h2
    | none =>
      right
      rw [List.find?_eq_none] at h2
      refine ⟨rfl, fun m hm => ?_⟩
      rcases hm with ⟨x, hx, -, h3⟩ | hm
      · exact h1 x hx (by simpa using h3)
      · exact h2 _ hm (by simp)

end Mosml.Lex
