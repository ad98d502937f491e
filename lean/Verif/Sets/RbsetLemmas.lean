import Verif.Sets.RbsetTrees
import Verif.Sets.Merge

/-!
Trees from sorted lists, merging, intervals and images in Rbset.
-/
namespace Mosml.Sets.Rbset
open Mosml.Maps (Lawful)
open Tree Digits
variable {K : Type}

/-! ### trees from sorted lists -/

/-- the elements of the digits, the least first -/
def flatD : Digits K → List K
  | ZERO => []
  | ONE x a ds => flatD ds ++ (flat a ++ [x])
  | TWO y b x a ds => flatD ds ++ (flat a ++ x :: (flat b ++ [y]))

/-- a full tree of black nodes -/
def Perfect (i : Nat) (t : Tree K) : Prop := invh t ∧ invc t ∧ isBlack t ∧ bh t = i ∧ (flat t).length + 1 = 2 ^ i

def Good : Nat → Digits K → Prop
  | _, ZERO => True
  | i, ONE _ a ds => Perfect i a ∧ Good (i + 1) ds
  | i, TWO _ b _ a ds => Perfect i b ∧ Perfect i a ∧ Good (i + 1) ds

theorem perfect_leaf : Perfect 0 (LEAF : Tree K) := ⟨trivial, trivial, trivial, rfl, rfl⟩

theorem perfect_black {i : Nat} {x : K} {a b : Tree K} (ha : Perfect i a) (hb : Perfect i b) : Perfect (i + 1) (BLACK x a b) := by
  obtain ⟨a1, a2, a3, a4, a5⟩ := ha
  obtain ⟨b1, b2, b3, b4, b5⟩ := hb
  refine ⟨⟨by omega, a1, b1⟩, ⟨a2, b2⟩, trivial, by simp [bh, a4], ?_⟩
  simp only [flat, List.length_append, List.length_cons, Nat.pow_succ]; omega

theorem incr_ok (ds : Digits K) : ∀ (i : Nat) (z : K) (c : Tree K), Perfect i c → Good i ds →
    Good i (incr z c ds) ∧ flatD (incr z c ds) = flatD ds ++ (flat c ++ [z]) := by
  induction ds with
  | ZERO => intro i z c hc _; exact ⟨⟨hc, trivial⟩, rfl⟩
  | ONE y b ds ih => intro i z c hc hg; exact ⟨⟨hc, hg.1, hg.2⟩, by simp [incr, flatD]⟩
  | TWO y b x a ds ih =>
    intro i z c hc ⟨hb, ha, hg⟩
    obtain ⟨h1, h2⟩ := ih (i + 1) y (BLACK x a b) (perfect_black ha hb) hg
    exact ⟨⟨hc, h1⟩, by simp [incr, flatD, h2, flat]⟩

theorem insertMax_ok {ds : Digits K} (x : K) (h : Good 0 ds) : Good 0 (insertMax x ds) ∧ flatD (insertMax x ds) = flatD ds ++ [x] := by
  have := incr_ok ds 0 x LEAF perfect_leaf h
  simpa [insertMax, flat] using this

theorem build_ok (ds : Digits K) : ∀ (i : Nat) (c : Tree K), Good i ds → invh c → invc c → isBlack c → bh c = i →
    invh (build ds c) ∧ invc (build ds c) ∧ isBlack (build ds c) ∧ flat (build ds c) = flatD ds ++ flat c := by
  induction ds with
  | ZERO => intro i c _ h1 h2 h3 _; exact ⟨h1, h2, h3, rfl⟩
  | ONE x a ds ih =>
    intro i c ⟨⟨a1, a2, a3, a4, _⟩, hg⟩ h1 h2 h3 h4
    obtain ⟨k1, k2, k3, k4⟩ := ih (i + 1) (BLACK x a c) hg ⟨by omega, a1, h1⟩ ⟨a2, h2⟩ trivial (by simp [bh, a4])
    exact ⟨k1, k2, k3, by rw [build, k4]; simp [flatD, flat]⟩
  | TWO y b x a ds ih =>
    intro i c ⟨⟨b1, b2, b3, b4, _⟩, ⟨a1, a2, a3, a4, _⟩, hg⟩ h1 h2 h3 h4
    obtain ⟨k1, k2, k3, k4⟩ := ih (i + 1) (BLACK x a (RED y b c)) hg ⟨by simp only [bh]; omega, a1, by omega, b1, h1⟩
      ⟨a2, b3, h3, b2, h2⟩ trivial (by simp [bh, a4])
    exact ⟨k1, k2, k3, by rw [build, k4]; simp [flatD, flat]⟩

theorem toIntLoop_ok (ds : Digits K) : ∀ (i : Nat) (acc : Int), Good i ds → toIntLoop ds (2 ^ i) acc = acc + (flatD ds).length := by
  induction ds with
  | ZERO => intro i acc _; simp [toIntLoop, flatD]
  | ONE x a ds ih =>
    intro i acc ⟨⟨_, _, _, _, a5⟩, hg⟩
    have e : (2 : Int) * 2 ^ i = 2 ^ (i + 1) := by rw [Int.pow_succ]; omega
    have a6 : ((flat a).length : Int) + 1 = 2 ^ i := by exact_mod_cast a5
    rw [toIntLoop, e, ih (i + 1) _ hg]
    simp only [flatD, List.length_append, List.length_cons, List.length_nil]
    push_cast; omega
  | TWO y b x a ds ih =>
    intro i acc ⟨⟨_, _, _, _, b5⟩, ⟨_, _, _, _, a5⟩, hg⟩
    have e : (2 : Int) * 2 ^ i = 2 ^ (i + 1) := by rw [Int.pow_succ]; omega
    have a6 : ((flat a).length : Int) + 1 = 2 ^ i := by exact_mod_cast a5
    have b6 : ((flat b).length : Int) + 1 = 2 ^ i := by exact_mod_cast b5
    rw [toIntLoop, e, ih (i + 1) _ hg, ← e]
    simp only [flatD, List.length_append, List.length_cons, List.length_nil]
    push_cast; omega

/-- the invariant of a set -/
def Ok (s : RSet K) : Prop := invh s.tree ∧ invc s.tree ∧ isBlack s.tree ∧ s.n = (flat s.tree).length

theorem ofDigits_ok {ds : Digits K} (h : Good 0 ds) : Ok (ofDigits ds) ∧ flat (ofDigits ds).tree = flatD ds := by
  obtain ⟨k1, k2, k3, k4⟩ := build_ok ds 0 LEAF h trivial trivial trivial rfl
  have k5 : flat (buildAll ds) = flatD ds := by rw [buildAll, k4]; simp [flat]
  refine ⟨⟨k1, k2, k3, ?_⟩, k5⟩
  have := toIntLoop_ok ds 0 0 h
  simp only [ofDigits, toInt, k5]
  simpa using this

theorem fromSortedList_ok (l : List K) : Ok (fromSortedList l) ∧ flat (fromSortedList l).tree = l := by
  have : ∀ (l : List K) (ds : Digits K), Good 0 ds →
      Good 0 (l.foldl (fun d x => insertMax x d) ds) ∧ flatD (l.foldl (fun d x => insertMax x d) ds) = flatD ds ++ l := by
    intro l
    induction l with
    | nil => intro ds h; exact ⟨h, by simp⟩
    | cons x l ih =>
      intro ds h
      obtain ⟨h1, h2⟩ := insertMax_ok x h
      obtain ⟨h3, h4⟩ := ih _ h1
      exact ⟨h3, by rw [List.foldl_cons, h4, h2]; simp⟩
  obtain ⟨h1, h2⟩ := this l ZERO trivial
  obtain ⟨h3, h4⟩ := ofDigits_ok h1
  exact ⟨h3, by rw [fromSortedList, h4, h2]; rfl⟩

theorem insRest_ok (stack : List (Tree K)) (ds : Digits K) (h : Good 0 ds) :
    Good 0 (insRest stack ds) ∧ flatD (insRest stack ds) = flatD ds ++ stack.flatMap flat := by
  fun_induction insRest stack ds with
  | case1 stack acc x s' e ih =>
    rcases getMin_ok stack with ⟨k1, k2⟩ | ⟨k, s'', k1, k2⟩
    · rw [k2] at e; cases e
    · rw [k1] at e; cases e
      obtain ⟨h1, h2⟩ := insertMax_ok x h
      obtain ⟨h3, h4⟩ := ih h1
      exact ⟨h3, by rw [h4, h2, k2]; simp⟩
  | case2 stack acc e =>
    rcases getMin_ok stack with ⟨k1, k2⟩ | ⟨k, s'', k1, k2⟩
    · exact ⟨h, by rw [k1]; simp⟩
    · rw [k1] at e; cases e

/-! ### combining sets -/

theorem getMin_some {s s' : List (Tree K)} {x : K} (h : getMin s = some (x, s')) : s.flatMap flat = x :: s'.flatMap flat := by
  rcases getMin_ok s with ⟨k1, k2⟩ | ⟨k, s'', k1, k2⟩
  · rw [k2] at h; cases h
  · rw [k1] at h; cases h; exact k2

theorem getMin_none {s : List (Tree K)} (h : getMin s = none) : s.flatMap flat = [] := by
  rcases getMin_ok s with ⟨k1, k2⟩ | ⟨k, s'', k1, k2⟩
  · exact k1
  · rw [k1] at h; cases h

theorem unionLoop_ok (cmp : K → K → Ordering) (x y : K) (s1 s2 : List (Tree K)) (ds : Digits K) (h : Good 0 ds) :
    Good 0 (unionLoop cmp x y s1 s2 ds) ∧
      flatD (unionLoop cmp x y s1 s2 ds) = flatD ds ++ lunion cmp (x :: s1.flatMap flat) (y :: s2.flatMap flat) := by
  fun_induction unionLoop cmp x y s1 s2 ds with
  | case1 x y s1 s2 ds e x' s1' y' s2' h1 h2 ih =>
    obtain ⟨k1, k2⟩ := insertMax_ok x h
    obtain ⟨k3, k4⟩ := ih k1
    exact ⟨k3, by rw [k4, k2, getMin_some h1, getMin_some h2, lunion.eq_3 cmp x, e]; simp⟩
  | case2 x y s1 s2 ds e h1 h2 =>
    obtain ⟨k1, k2⟩ := insertMax_ok x h
    exact ⟨k1, by rw [k2, getMin_none h1, getMin_none h2, lunion, e]; simp [lunion]⟩
  | case3 x y s1 s2 ds e p h1 h2 =>
    obtain ⟨k1, k2⟩ := insertMax_ok x h
    obtain ⟨k3, k4⟩ := insRest_ok s1 _ k1
    exact ⟨k3, by rw [k4, k2, getMin_none h2, lunion, e]; simp only [getMin_some h1]; simp [lunion]⟩
  | case4 x y s1 s2 ds e p h1 h2 =>
    obtain ⟨k1, k2⟩ := insertMax_ok x h
    obtain ⟨k3, k4⟩ := insRest_ok s2 _ k1
    exact ⟨k3, by rw [k4, k2, getMin_none h1, lunion, e]; simp [lunion]⟩
  | case5 x y s1 s2 ds e h1 =>
    obtain ⟨k1, k2⟩ := insertMax_ok x h
    obtain ⟨k3, k4⟩ := insertMax_ok y k1
    obtain ⟨k5, k6⟩ := insRest_ok s2 _ k3
    exact ⟨k5, by rw [k6, k4, k2, getMin_none h1, lunion, e]; simp [lunion]⟩
  | case6 x y s1 s2 ds e x' s1' h1 ih =>
    obtain ⟨k1, k2⟩ := insertMax_ok x h
    obtain ⟨k3, k4⟩ := ih k1
    exact ⟨k3, by rw [k4, k2, getMin_some h1, lunion.eq_3 cmp x, e]; simp⟩
  | case7 x y s1 s2 ds e h2 =>
    obtain ⟨k1, k2⟩ := insertMax_ok y h
    obtain ⟨k3, k4⟩ := insertMax_ok x k1
    obtain ⟨k5, k6⟩ := insRest_ok s1 _ k3
    exact ⟨k5, by rw [k6, k4, k2, getMin_none h2, lunion, e]; simp [lunion]⟩
  | case8 x y s1 s2 ds e y' s2' h2 ih =>
    obtain ⟨k1, k2⟩ := insertMax_ok y h
    obtain ⟨k3, k4⟩ := ih k1
    exact ⟨k3, by rw [k4, k2, getMin_some h2, lunion.eq_3 cmp x _ y, e]; simp⟩

theorem interLoop_ok (cmp : K → K → Ordering) (x y : K) (s1 s2 : List (Tree K)) (ds : Digits K) (h : Good 0 ds) :
    Good 0 (interLoop cmp x y s1 s2 ds) ∧
      flatD (interLoop cmp x y s1 s2 ds) = flatD ds ++ linter cmp (x :: s1.flatMap flat) (y :: s2.flatMap flat) := by
  fun_induction interLoop cmp x y s1 s2 ds with
  | case1 x y s1 s2 ds e x' s1' y' s2' h1 h2 ih =>
    obtain ⟨k1, k2⟩ := insertMax_ok x h
    obtain ⟨k3, k4⟩ := ih k1
    exact ⟨k3, by rw [k4, k2, getMin_some h1, getMin_some h2, linter.eq_3 cmp x, e]; simp⟩
  | case2 x y s1 s2 ds e h1 =>
    obtain ⟨k1, k2⟩ := insertMax_ok x h
    exact ⟨k1, by rw [k2, getMin_none h1, linter, e]; simp [linter]⟩
  | case3 x y s1 s2 ds e p h1 h2 =>
    obtain ⟨k1, k2⟩ := insertMax_ok x h
    exact ⟨k1, by rw [k2, getMin_none h2, linter, e]; simp only [getMin_some h1]; simp [linter]⟩
  | case4 x y s1 s2 ds e h1 =>
    exact ⟨h, by rw [getMin_none h1, linter, e]; simp [linter]⟩
  | case5 x y s1 s2 ds e x' s1' h1 ih =>
    obtain ⟨k3, k4⟩ := ih h
    exact ⟨k3, by rw [k4, getMin_some h1, linter.eq_3 cmp x, e]⟩
  | case6 x y s1 s2 ds e h2 =>
    exact ⟨h, by rw [getMin_none h2, linter, e]; simp [linter]⟩
  | case7 x y s1 s2 ds e y' s2' h2 ih =>
    obtain ⟨k3, k4⟩ := ih h
    exact ⟨k3, by rw [k4, getMin_some h2, linter.eq_3 cmp x _ y, e]⟩

theorem diffLoop_ok (cmp : K → K → Ordering) (x y : K) (s1 s2 : List (Tree K)) (ds : Digits K) (h : Good 0 ds) :
    Good 0 (diffLoop cmp x y s1 s2 ds) ∧
      flatD (diffLoop cmp x y s1 s2 ds) = flatD ds ++ ldiff cmp (x :: s1.flatMap flat) (y :: s2.flatMap flat) := by
  fun_induction diffLoop cmp x y s1 s2 ds with
  | case1 x y s1 s2 ds e x' s1' y' s2' h1 h2 ih =>
    obtain ⟨k3, k4⟩ := ih h
    exact ⟨k3, by rw [k4, getMin_some h1, getMin_some h2, ldiff.eq_3 cmp x, e]⟩
  | case2 x y s1 s2 ds e p h1 h2 =>
    obtain ⟨k3, k4⟩ := insRest_ok s1 _ h
    exact ⟨k3, by rw [k4, getMin_none h2, ldiff, e]; simp only [getMin_some h1]; simp [ldiff]⟩
  | case3 x y s1 s2 ds e h1 =>
    exact ⟨h, by rw [getMin_none h1, ldiff, e]; simp [ldiff]⟩
  | case4 x y s1 s2 ds e h1 =>
    obtain ⟨k1, k2⟩ := insertMax_ok x h
    exact ⟨k1, by rw [k2, getMin_none h1, ldiff, e]; simp [ldiff]⟩
  | case5 x y s1 s2 ds e x' s1' h1 ih =>
    obtain ⟨k1, k2⟩ := insertMax_ok x h
    obtain ⟨k3, k4⟩ := ih k1
    exact ⟨k3, by rw [k4, k2, getMin_some h1, ldiff.eq_3 cmp x, e]; simp⟩
  | case6 x y s1 s2 ds e h2 =>
    obtain ⟨k1, k2⟩ := insertMax_ok x h
    obtain ⟨k3, k4⟩ := insRest_ok s1 _ k1
    exact ⟨k3, by rw [k4, k2, getMin_none h2, ldiff, e]; simp [ldiff]⟩
  | case7 x y s1 s2 ds e y' s2' h2 ih =>
    obtain ⟨k3, k4⟩ := ih h
    exact ⟨k3, by rw [k4, getMin_some h2, ldiff.eq_3 cmp x _ y, e]⟩

theorem isSubsetLoop_ok (cmp : K → K → Ordering) (x y : K) (s1 s2 : List (Tree K)) :
    isSubsetLoop cmp x y s1 s2 = lsub cmp (x :: s1.flatMap flat) (y :: s2.flatMap flat) := by
  fun_induction isSubsetLoop cmp x y s1 s2 with
  | case1 x y s1 s2 e x' s1' y' s2' h1 h2 ih => rw [ih, getMin_some h1, getMin_some h2, lsub.eq_3 cmp x, e]
  | case2 x y s1 s2 e h1 => rw [getMin_none h1, lsub, e]; simp [lsub]
  | case3 x y s1 s2 e p h1 h2 => rw [getMin_none h2, lsub, e]; simp only [getMin_some h1]; simp [lsub]
  | case4 x y s1 s2 e => rw [lsub, e]
  | case5 x y s1 s2 e y' s2' h2 ih => rw [ih, getMin_some h2, lsub.eq_3 cmp x _ y, e]
  | case6 x y s1 s2 e h2 => rw [getMin_none h2, lsub, e]; simp [lsub]

theorem compareLoop_ok (cmp : K → K → Ordering) (x y : K) (s1 s2 : List (Tree K)) :
    compareLoop cmp x y s1 s2 = llex cmp (x :: s1.flatMap flat) (y :: s2.flatMap flat) := by
  fun_induction compareLoop cmp x y s1 s2 with
  | case1 x y s1 s2 e x' s1' y' s2' h1 h2 ih => rw [ih, getMin_some h1, getMin_some h2, llex.eq_4 cmp x, e]
  | case2 x y s1 s2 e h1 h2 => rw [getMin_none h1, getMin_none h2, llex, e]; simp [llex]
  | case3 x y s1 s2 e p h1 h2 => rw [getMin_none h1, llex, e]; simp only [getMin_some h2]; simp [llex]
  | case4 x y s1 s2 e p h1 h2 => rw [getMin_none h2, llex, e]; simp only [getMin_some h1]; simp [llex]
  | case5 x y s1 s2 e =>
    rw [llex]
    split
    · contradiction
    · rfl

theorem equalLoop_ok (cmp : K → K → Ordering) (x y : K) (s1 s2 : List (Tree K)) :
    equalLoop cmp x y s1 s2 = (llex cmp (x :: s1.flatMap flat) (y :: s2.flatMap flat) == .eq) := by
  fun_induction equalLoop cmp x y s1 s2 with
  | case1 x y s1 s2 e x' s1' y' s2' h1 h2 ih => rw [ih, getMin_some h1, getMin_some h2, llex.eq_4 cmp x, e]
  | case2 x y s1 s2 e h1 h2 => rw [getMin_none h1, getMin_none h2, llex, e]; simp [llex]
  | case3 x y s1 s2 e p h1 h2 => rw [getMin_none h1, llex, e]; simp only [getMin_some h2]; simp [llex]
  | case4 x y s1 s2 e p h1 h2 => rw [getMin_none h2, llex, e]; simp only [getMin_some h1]; simp [llex]
  | case5 x y s1 s2 e =>
    rw [llex]
    split
    · contradiction
    · cases e1 : cmp x y with
      | eq => contradiction
      | _ => rfl

/-- a set is represented by a tree -/
def Repr (cmp : K → K → Ordering) (s : RSet K) (m : FSet K) : Prop := Ok s ∧ Lists cmp (flat s.tree) m

theorem flat_one (t : Tree K) : [t].flatMap flat = flat t := by simp

section
variable {cmp : K → K → Ordering} (h : Lawful cmp)
include h

theorem union_ok {s1 s2 : RSet K} {m n : FSet K} (h1 : Repr cmp s1 m) (h2 : Repr cmp s2 n) : Repr cmp (union cmp s1 s2) (FSet.union m n) := by
  have key : Ok (union cmp s1 s2) ∧ flat (union cmp s1 s2).tree = lunion cmp (flat s1.tree) (flat s2.tree) := by
    unfold union
    cases e1 : getMin [s1.tree] with
    | none =>
      have k1 := getMin_none e1
      rw [flat_one] at k1
      cases e2 : getMin [s2.tree] with
      | none =>
        have k2 := getMin_none e2
        rw [flat_one] at k2
        exact ⟨h1.1, by rw [k1, k2]; simp [lunion]⟩
      | some p => exact ⟨h2.1, by rw [k1]; simp [lunion]⟩
    | some p =>
      have k1 := getMin_some e1
      rw [flat_one] at k1
      cases e2 : getMin [s2.tree] with
      | none =>
        have k2 := getMin_none e2
        rw [flat_one] at k2
        exact ⟨h1.1, by rw [k2, k1]; simp [lunion]⟩
      | some q =>
        have k2 := getMin_some e2
        rw [flat_one] at k2
        obtain ⟨k3, k4⟩ := unionLoop_ok cmp p.1 q.1 p.2 q.2 ZERO trivial
        obtain ⟨k5, k6⟩ := ofDigits_ok k3
        exact ⟨k5, by rw [k6, k4, k1, k2]; rfl⟩
  refine ⟨key.1, ?_⟩
  rw [key.2]
  exact Lists.of_union h h1.2 h2.2 (lunion_asc h _ _ h1.2.1 h2.2.1) (lunion_mem h _ _ h1.2.1 h2.2.1)

theorem inter_ok {s1 s2 : RSet K} {m n : FSet K} (h1 : Repr cmp s1 m) (h2 : Repr cmp s2 n) : Repr cmp (intersection cmp s1 s2) (FSet.inter m n) := by
  have key : Ok (intersection cmp s1 s2) ∧ flat (intersection cmp s1 s2).tree = linter cmp (flat s1.tree) (flat s2.tree) := by
    unfold intersection
    cases e1 : getMin [s1.tree] with
    | none =>
      have k1 := getMin_none e1
      rw [flat_one] at k1
      exact ⟨⟨trivial, trivial, trivial, rfl⟩, by rw [k1]; simp [linter, empty, flat]⟩
    | some p =>
      have k1 := getMin_some e1
      rw [flat_one] at k1
      cases e2 : getMin [s2.tree] with
      | none =>
        have k2 := getMin_none e2
        rw [flat_one] at k2
        exact ⟨⟨trivial, trivial, trivial, rfl⟩, by rw [k2, k1]; simp [linter, empty, flat]⟩
      | some q =>
        have k2 := getMin_some e2
        rw [flat_one] at k2
        obtain ⟨k3, k4⟩ := interLoop_ok cmp p.1 q.1 p.2 q.2 ZERO trivial
        obtain ⟨k5, k6⟩ := ofDigits_ok k3
        exact ⟨k5, by rw [k6, k4, k1, k2]; rfl⟩
  refine ⟨key.1, ?_⟩
  rw [key.2]
  exact Lists.of_inter h h1.2 h2.2 (linter_asc h _ _ h1.2.1 h2.2.1) (linter_mem h _ _ h1.2.1 h2.2.1)

theorem diff_ok {s1 s2 : RSet K} {m n : FSet K} (h1 : Repr cmp s1 m) (h2 : Repr cmp s2 n) : Repr cmp (difference cmp s1 s2) (FSet.diff m n) := by
  have key : Ok (difference cmp s1 s2) ∧ flat (difference cmp s1 s2).tree = ldiff cmp (flat s1.tree) (flat s2.tree) := by
    unfold difference
    cases e1 : getMin [s1.tree] with
    | none =>
      have k1 := getMin_none e1
      rw [flat_one] at k1
      cases e2 : getMin [s2.tree] with
      | none => exact ⟨h1.1, by rw [k1]; simp [ldiff]⟩
      | some p => exact ⟨⟨trivial, trivial, trivial, rfl⟩, by rw [k1]; simp [ldiff, empty, flat]⟩
    | some p =>
      have k1 := getMin_some e1
      rw [flat_one] at k1
      cases e2 : getMin [s2.tree] with
      | none =>
        have k2 := getMin_none e2
        rw [flat_one] at k2
        exact ⟨h1.1, by rw [k2, k1]; simp [ldiff]⟩
      | some q =>
        have k2 := getMin_some e2
        rw [flat_one] at k2
        obtain ⟨k3, k4⟩ := diffLoop_ok cmp p.1 q.1 p.2 q.2 ZERO trivial
        obtain ⟨k5, k6⟩ := ofDigits_ok k3
        exact ⟨k5, by rw [k6, k4, k1, k2]; rfl⟩
  refine ⟨key.1, ?_⟩
  rw [key.2]
  exact Lists.of_diff h h1.2 h2.2 (ldiff_asc h _ _ h1.2.1 h2.2.1) (ldiff_mem h _ _ h1.2.1 h2.2.1)

omit h in
theorem compare_ok (s1 s2 : RSet K) : compare cmp s1 s2 = llex cmp (flat s1.tree) (flat s2.tree) := by
  unfold compare
  cases e1 : getMin [s1.tree] with
  | none =>
    have k1 := getMin_none e1
    rw [flat_one] at k1
    cases e2 : getMin [s2.tree] with
    | none => have k2 := getMin_none e2; rw [flat_one] at k2; rw [k1, k2]; simp [llex]
    | some q => have k2 := getMin_some e2; rw [flat_one] at k2; rw [k1, k2]; simp [llex]
  | some p =>
    have k1 := getMin_some e1
    rw [flat_one] at k1
    cases e2 : getMin [s2.tree] with
    | none => have k2 := getMin_none e2; rw [flat_one] at k2; rw [k1, k2]; simp [llex]
    | some q => have k2 := getMin_some e2; rw [flat_one] at k2; rw [k1, k2]; exact compareLoop_ok cmp p.1 q.1 p.2 q.2

omit h in
theorem equal_ok (s1 s2 : RSet K) : equal cmp s1 s2 = (llex cmp (flat s1.tree) (flat s2.tree) == .eq) := by
  unfold equal
  cases e1 : getMin [s1.tree] with
  | none =>
    have k1 := getMin_none e1
    rw [flat_one] at k1
    cases e2 : getMin [s2.tree] with
    | none => have k2 := getMin_none e2; rw [flat_one] at k2; rw [k1, k2]; simp [llex]
    | some q => have k2 := getMin_some e2; rw [flat_one] at k2; rw [k1, k2]; simp [llex]
  | some p =>
    have k1 := getMin_some e1
    rw [flat_one] at k1
    cases e2 : getMin [s2.tree] with
    | none => have k2 := getMin_none e2; rw [flat_one] at k2; rw [k1, k2]; simp [llex]
    | some q => have k2 := getMin_some e2; rw [flat_one] at k2; rw [k1, k2]; exact equalLoop_ok cmp p.1 q.1 p.2 q.2

omit h in
theorem isSubset_ok (s1 s2 : RSet K) : isSubset cmp s1 s2 = lsub cmp (flat s1.tree) (flat s2.tree) := by
  unfold isSubset
  cases e1 : getMin [s1.tree] with
  | none =>
    have k1 := getMin_none e1
    rw [flat_one] at k1
    rw [k1]; simp [lsub]
  | some p =>
    have k1 := getMin_some e1
    rw [flat_one] at k1
    cases e2 : getMin [s2.tree] with
    | none => have k2 := getMin_none e2; rw [flat_one] at k2; rw [k1, k2]; simp [lsub]
    | some q => have k2 := getMin_some e2; rw [flat_one] at k2; rw [k1, k2]; exact isSubsetLoop_ok cmp p.1 q.1 p.2 q.2

/-! ### single elements -/

omit h in
theorem blacken_ok (t : Tree K) (h : invh t) (c : invc2 t) : invh (blacken t) ∧ invc (blacken t) ∧ isBlack (blacken t) := by
  refine ⟨?_, c, ?_⟩ <;> cases t <;> first | exact h | trivial

omit h in
theorem empty_ok : Repr cmp empty FSet.empty := ⟨⟨trivial, trivial, trivial, rfl⟩, Lists.empty⟩

theorem singleton_ok (x : K) : Repr cmp (singleton x) (FSet.add cmp FSet.empty x) :=
  ⟨⟨⟨rfl, trivial, trivial⟩, ⟨trivial, trivial⟩, trivial, rfl⟩, Lists.empty.add h x⟩

theorem add_ok {s : RSet K} {m : FSet K} (hs : Repr cmp s m) (x : K) : Repr cmp (add cmp s x) (FSet.add cmp m x) := by
  obtain ⟨⟨k1, k2, k3, k4⟩, k5⟩ := hs
  unfold add
  rcases ins_ok h x s.tree k5.1 k1 k2 with ⟨i1, i2, i3⟩ | ⟨t', i1, i2, i3, i4, i5, i6, _⟩
  · rw [i1]
    refine ⟨⟨k1, k2, k3, k4⟩, ?_⟩
    simp only
    rw [← i3]; exact k5.add h x
  · rw [i1]
    obtain ⟨b1, b2, b3⟩ := blacken_ok _ i4 i6
    refine ⟨⟨b1, b2, b3, ?_⟩, ?_⟩
    · simp only [flat_blacken, i3, ladd_length, i2, k4]; simp
    · simp only [flat_blacken, i3]; exact k5.add h x

theorem delete_ok {s : RSet K} {m : FSet K} (hs : Repr cmp s m) (x : K) :
    (m x = none ∧ delete cmp s x = .notFound) ∨ ∃ s', (m x).isSome ∧ delete cmp s x = .ok s' ∧ Repr cmp s' (FSet.remove cmp m x) := by
  obtain ⟨⟨k1, k2, k3, k4⟩, k5⟩ := hs
  unfold delete
  rw [← k5.find h x]
  rcases del_ok h x s.tree k1 k2 k5.1 with ⟨i1, i2⟩ | ⟨p, t', i1, i2, i3, i4⟩
  · rw [i2]; exact .inl ⟨i1, rfl⟩
  · rw [i2]
    obtain ⟨b1, b2, b3⟩ := blacken_ok _ i4.1 (i4.2.1 k3).1
    refine .inr ⟨_, by rw [i1]; rfl, rfl, ⟨b1, b2, b3, ?_⟩, ?_⟩
    · have := lrem_length i1
      simp only [flat_blacken, i3, k4]; omega
    · simp only [flat_blacken, i3]; exact k5.remove h x

/-! ### intervals -/

/-- the interval, as documented -/
def inside (cmp : K → K → Ordering) : Intv K → K → Bool
  | .All, _ => true
  | .From a, e => cmp a e != .gt
  | .To b, e => cmp e b == .lt
  | .FromTo a b, e => cmp a e != .gt && cmp e b == .lt

omit h in
theorem collectall_ok (t : Tree K) (res : List K) : collectall t res = flat t ++ res := by
  induction t generalizing res with
  | LEAF => rfl
  | RED k l r ihl ihr | BLACK k l r ihl ihr => simp [collectall, flat, ihl, ihr]

omit h in
theorem filter_none {p : K → Bool} {l : List K} (k : ∀ x ∈ l, p x = false) : l.filter p = [] := by
  rw [List.filter_eq_nil_iff]; intro a ha; simp [k a ha]

omit h in
theorem filter_all {p : K → Bool} {l : List K} (k : ∀ x ∈ l, p x = true) : l.filter p = l := List.filter_eq_self.2 k

theorem from_up {a k e : K} (h1 : cmp a k ≠ .gt) (h2 : cmp k e = .lt) : (cmp a e != .gt) = true := by
  cases e1 : cmp a k with
  | gt => exact absurd e1 h1
  | lt => simp [h.lt_trans e1 h2]
  | eq => simp [h.lt_of_eq_of_lt e1 h2]

theorem from_down {a k e : K} (h1 : cmp a k = .gt) (h2 : cmp e k = .lt) : (cmp a e != .gt) = false := by
  have := h.lt_trans h2 ((h.gt_iff _ _).1 h1)
  simp [(h.gt_iff a e).2 this]

theorem to_down {b k e : K} (h1 : cmp k b = .lt) (h2 : cmp e k = .lt) : (cmp e b == .lt) = true := by
  simp [h.lt_trans h2 h1]

theorem to_up {b k e : K} (h1 : cmp k b ≠ .lt) (h2 : cmp k e = .lt) : (cmp e b == .lt) = false := by
  cases e1 : cmp e b with
  | lt => exact absurd (h.lt_trans h2 e1) h1
  | _ => rfl

theorem collectfrom_From (a : K) (t : Tree K) (ho : Asc cmp (flat t)) (res : List K) :
    collectfrom cmp (.From a) t res = (flat t).filter (fun e => cmp a e != .gt) ++ res := by
  induction t generalizing res with
  | LEAF => rfl
  | RED k l r ihl ihr | BLACK k l r ihl ihr =>
    obtain ⟨o1, o2, o3, o4, _⟩ := asc_mid.mp ho
    simp only [collectfrom, flat, List.filter_append, List.filter_cons]
    split
    · rename_i e
      rw [filter_none (fun x hx => from_down h e (o3 x hx)), ihr o2]
      simp [e]
    · rename_i e
      rw [ihl o1, collectall_ok, filter_all (fun x hx => from_up h e (o4 x hx)), if_pos (by simpa using e)]
      simp

theorem collectfrom_FromTo (a b : K) (t : Tree K) (ho : Asc cmp (flat t)) (res : List K) :
    collectfrom cmp (.FromTo a b) t res = (flat t).filter (fun e => cmp a e != .gt) ++ res := by
  induction t generalizing res with
  | LEAF => rfl
  | RED k l r ihl ihr | BLACK k l r ihl ihr =>
    obtain ⟨o1, o2, o3, o4, _⟩ := asc_mid.mp ho
    simp only [collectfrom, flat, List.filter_append, List.filter_cons]
    split
    · rename_i e
      rw [filter_none (fun x hx => from_down h e (o3 x hx)), ihr o2]
      simp [e]
    · rename_i e
      rw [ihl o1, ihr o2, if_pos (by simpa using e)]
      simp

theorem collectto_ok (intv : Intv K) (b : K) (hi : intv = .To b ∨ ∃ a, intv = .FromTo a b) (t : Tree K) (ho : Asc cmp (flat t)) (res : List K) :
    collectto cmp intv t res = (flat t).filter (fun e => cmp e b == .lt) ++ res := by
  induction t generalizing res with
  | LEAF => rfl
  | RED k l r ihl ihr | BLACK k l r ihl ihr =>
    obtain ⟨o1, o2, o3, o4, _⟩ := asc_mid.mp ho
    rcases hi with rfl | ⟨a, rfl⟩
    all_goals
      simp only [collectto, flat, List.filter_append, List.filter_cons]
      split
      · rename_i e
        rw [collectall_ok, ihr o2, filter_all (fun x hx => to_down h e (o3 x hx)), if_pos (by simp [e])]
        simp
      · rename_i e
        rw [ihl o1, filter_none (fun x hx => to_up h e (o4 x hx)), if_neg (by simpa using e)]
        simp

theorem collectfromto_ok (intv : Intv K) (t : Tree K) (ho : Asc cmp (flat t)) (res : List K) :
    collectfromto cmp intv t res = (flat t).filter (inside cmp intv) ++ res := by
  cases intv with
  | All =>
    have e : inside cmp (.All : Intv K) = fun _ => true := by funext x; rfl
    rw [e, filter_all (fun _ _ => rfl)]
    cases t <;> simp [collectfromto, collectall_ok, flat]
  | From a =>
    have e : inside cmp (.From a) = fun x => cmp a x != .gt := by funext x; rfl
    cases t with
    | LEAF => rfl
    | _ => rw [collectfromto, collectfrom_From h _ _ ho, e]
  | To b =>
    have e : inside cmp (.To b) = fun x => cmp x b == .lt := by funext x; rfl
    cases t with
    | LEAF => rfl
    | _ => rw [collectfromto, collectto_ok h _ b (.inl rfl) _ ho, e]
  | FromTo a b =>
    induction t generalizing res with
    | LEAF => rfl
    | RED k l r ihl ihr | BLACK k l r ihl ihr =>
      obtain ⟨o1, o2, o3, o4, _⟩ := asc_mid.mp ho
      simp only [collectfromto, flat, List.filter_append, List.filter_cons]
      split
      · rename_i e
        rw [ihr o2, filter_none (l := flat l) (p := inside cmp (.FromTo a b)) (fun x hx => by simp only [inside, from_down h e (o3 x hx), Bool.false_and])]
        simp [inside, e]
      · rename_i e
        split
        · rename_i e2
          have f1 : (flat l).filter (inside cmp (.FromTo a b)) = (flat l).filter (fun e => cmp a e != .gt) := by
            apply List.filter_congr
            intro x hx
            simp only [inside, to_down h e2 (o3 x hx), Bool.and_true]
          have f2 : (flat r).filter (inside cmp (.FromTo a b)) = (flat r).filter (fun e => cmp e b == .lt) := by
            apply List.filter_congr
            intro x hx
            simp only [inside, from_up h e (o4 x hx), Bool.true_and]
          rw [collectfrom_FromTo h _ _ _ o1, collectto_ok h _ b (.inr ⟨a, rfl⟩) _ o2, f1, f2, if_pos (by simp [inside, e, e2])]
          simp
        · rename_i e2
          rw [ihl o1, filter_none (l := flat r) (p := inside cmp (.FromTo a b)) (fun x hx => by simp only [inside, to_up h e2 (o4 x hx), Bool.and_false])]
          simp [inside, e2]

theorem subset_ok {s : RSet K} {m : FSet K} (hs : Repr cmp s m) (intv : Intv K) :
    Repr cmp (subset cmp s intv) (FSet.filter (inside cmp intv) m) := by
  obtain ⟨h1, h2⟩ := fromSortedList_ok (sublist cmp s intv)
  refine ⟨h1, ?_⟩
  rw [subset, h2, sublist, collectfromto_ok h _ _ hs.2.1, List.append_nil]
  exact hs.2.filter h _

/-! ### images -/

omit h in
theorem foldl_ladd_asc {L : Type} {cmp : L → L → Ordering} (h : Lawful cmp) (f : K → L) (xs : List K) (acc : List L) (s : Asc cmp acc) :
    Asc cmp (xs.foldl (fun r x => ladd cmp (f x) r) acc) := by
  induction xs generalizing acc with
  | nil => exact s
  | cons x xs ih => exact ih _ (ladd_asc h s)

omit h in
theorem foldl_ladd_mem {L : Type} {cmp : L → L → Ordering} (h : Lawful cmp) (f : K → L) (xs : List K) (acc : List L) (s : Asc cmp acc) (e : L) :
    e ∈ xs.foldl (fun r x => ladd cmp (f x) r) acc ↔
      e ∈ acc ∨ ((∀ a ∈ acc, cmp e a ≠ .eq) ∧ ∃ pre x post, xs = pre ++ x :: post ∧ f x = e ∧ ∀ y ∈ pre, cmp (f x) (f y) ≠ .eq) := by
  induction xs generalizing acc with
  | nil => simp
  | cons x xs ih =>
    rw [List.foldl_cons, ih _ (ladd_asc h s)]
    constructor
    · rintro (h1 | ⟨h1, pre, y, post, rfl, rfl, h3⟩)
      · rcases (ladd_mem h s e).1 h1 with h1 | ⟨rfl, h2⟩
        · exact .inl h1
        · exact .inr ⟨h2, [], x, xs, rfl, rfl, by simp⟩
      · refine .inr ⟨fun a ha => h1 a ((ladd_mem h s a).2 (.inl ha)), x :: pre, y, post, rfl, rfl, ?_⟩
        intro z hz e1
        rcases List.mem_cons.mp hz with rfl | hz
        · by_cases k : ∀ p ∈ acc, cmp (f z) p ≠ .eq
          · exact h1 (f z) ((ladd_mem h s _).2 (.inr ⟨rfl, k⟩)) e1
          · push Not at k
            obtain ⟨p, hp, e2⟩ := k
            exact h1 p ((ladd_mem h s p).2 (.inl hp)) (h.eq_trans e1 e2)
        · exact h3 z hz e1
    · rintro (h1 | ⟨h1, pre, y, post, h2, rfl, h3⟩)
      · exact .inl ((ladd_mem h s e).2 (.inl h1))
      · cases pre with
        | nil =>
          cases h2
          exact .inl ((ladd_mem h s _).2 (.inr ⟨rfl, h1⟩))
        | cons p pre =>
          cases h2
          refine .inr ⟨?_, pre, y, post, rfl, rfl, fun z hz => h3 z (by simp [hz])⟩
          intro a ha e1
          rcases (ladd_mem h s a).1 ha with ha | ⟨rfl, _⟩
          · exact h1 a ha e1
          · exact h3 x (by simp) e1

omit h in
theorem map_ok {L : Type} {cmp : L → L → Ordering} (h : Lawful cmp) (f : K → L) (s : RSet K) :
    Ok (map f cmp s) ∧ flat (map f cmp s).tree = (flat s.tree).foldl (fun r x => ladd cmp (f x) r) [] ∧ Asc cmp (flat (map f cmp s).tree) := by
  have key : ∀ (xs : List K) (acc : RSet L), Ok acc → Asc cmp (flat acc.tree) →
      Ok (xs.foldl (fun r x => add cmp r (f x)) acc) ∧
      flat (xs.foldl (fun r x => add cmp r (f x)) acc).tree = xs.foldl (fun r x => ladd cmp (f x) r) (flat acc.tree) := by
    intro xs
    induction xs with
    | nil => intro acc h1 _; exact ⟨h1, rfl⟩
    | cons x xs ih =>
      intro acc h1 h2
      have k := add_ok h (s := acc) ⟨h1, lists_self h h2⟩ (f x)
      have e : flat (add cmp acc (f x)).tree = ladd cmp (f x) (flat acc.tree) := by
        obtain ⟨k1, k2, k3, k4⟩ := h1
        unfold add
        rcases ins_ok h (f x) acc.tree h2 k1 k2 with ⟨i1, i2, i3⟩ | ⟨t', i1, i2, i3, _⟩
        · rw [i1]; exact i3.symm
        · rw [i1]; simp only [flat_blacken, i3]
      obtain ⟨h3, h4⟩ := ih _ k.1 k.2.1
      exact ⟨h3, by rw [List.foldl_cons, h4, e]; rfl⟩
  have e : map f cmp s = (flat s.tree).foldl (fun r x => add cmp r (f x)) empty := by
    have : (push s.tree []).flatMap flat = flat s.tree := by rw [flat_push]; simp
    rw [map, foldl, foldlLoop_eq, this]
  obtain ⟨h1, h2⟩ := key (flat s.tree) empty ⟨trivial, trivial, trivial, rfl⟩ List.Pairwise.nil
  rw [e]
  exact ⟨h1, h2, by rw [h2]; exact foldl_ladd_asc h f _ _ List.Pairwise.nil⟩

end

end Mosml.Sets.Rbset
