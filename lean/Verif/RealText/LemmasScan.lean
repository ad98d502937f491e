import Verif.RealText.Lemmas

namespace Mosml.RealText
open Mosml.Num (IsDig numVal isDig10)
open Mosml.Floats
open scoped Classical

theorem digs_eq {S T : Type} (next : S → Int → R S) (final : S → R T) (s : Str) : ∀ st, digs next final st s =
    ((s.takeWhile isDigit).foldlM (fun a c => next a (decval c)) st >>= fun st' => final st' >>= fun v =>
      .ok (some v, s.dropWhile isDigit)) := by
  induction s with
  | nil => intro st; simp [digs]
  | cons c t ih =>
    intro st
    by_cases h : isDigit c = true
    · simp only [digs, h, if_true, List.takeWhile_cons, List.dropWhile_cons, List.foldlM_cons, bind_assoc, ih]
    · simp only [digs, h, List.takeWhile_cons, List.dropWhile_cons, List.foldlM_nil, pure_bind]
      rfl

theorem scandigs_nil {S T : Type} (first : Int → S) (next : S → Int → R S) (final : S → R T) {s : Str}
    (h : s.takeWhile isDigit = []) : scandigs first next final s = .ok (none, s) := by
  cases s with
  | nil => rfl
  | cons c t =>
    have : isDigit c = false := by
      by_contra hc
      simp at hc
      simp [List.takeWhile_cons, hc] at h
    simp [scandigs, this]

theorem scandigs_cons {S T : Type} (first : Int → S) (next : S → Int → R S) (final : S → R T) {s : Str} {c : Nat} {D : Str}
    (h : s.takeWhile isDigit = c :: D) : scandigs first next final s =
      (D.foldlM (fun a c => next a (decval c)) (first (decval c)) >>= fun st' => final st' >>= fun v =>
        .ok (some v, s.dropWhile isDigit)) := by
  cases s with
  | nil => simp at h
  | cons c' t =>
    by_cases hd : isDigit c' = true
    · simp only [List.takeWhile_cons, hd, if_true] at h
      cases h
      simp [scandigs, hd, digs_eq]
    · simp [List.takeWhile_cons, hd] at h

variable (fl : ℚ → ℚ)

/-- the digits before the point -/
def natR : Str → R ℚ
  | [] => .ok 0
  | c :: D => D.foldlM (fun a c => nextReal fl a (decval c)) (fl (decval c))

/-- the digits after the point -/
def fracR : Str → R ℚ
  | [] => .ok 0
  | c :: F => do
    let (decs, frac) ← F.foldlM (fun (p : Int × ℚ) c => do
      let d ← chki (p.1 + 1)
      let f ← nextReal fl p.2 (decval c)
      .ok (d, f)) ((1 : Int), fl (decval c))
    let p ← pow10 fl decs
    chkf fl (frac / p)

def manR (D F : Str) : R ℚ :=
  if F = [] then natR fl D
  else if D = [] then fracR fl F
  else do let i ← natR fl D; let f ← fracR fl F; chkf fl (i + f)

def expR : Str → R Int
  | [] => .ok 0
  | c :: X => X.foldlM (fun res c => do let t ← chki (10 * res); chki (t + decval c)) (decval c)

def litR (l : Lit) : R ℚ := do
  let m ← manR fl l.D l.F
  match l.ex with
  | none => .ok m
  | some (_, g, X) => do
    let x ← expR X
    let p ← pow10 fl x
    if isMinus g then chkf fl (m / p) else chkf fl (m * p)

theorem getint_nil {s : Str} (h : s.takeWhile isDigit = []) : getint fl s = .ok (none, s) := scandigs_nil _ _ _ h

theorem getint_ne {s : Str} (h : s.takeWhile isDigit ≠ []) :
    getint fl s = (natR fl (s.takeWhile isDigit) >>= fun v => .ok (some v, s.dropWhile isDigit)) := by
  cases hs : s.takeWhile isDigit with
  | nil => exact absurd hs h
  | cons c D =>
    rw [getint, scandigs_cons _ _ _ hs]
    simp [natR]
    rfl

theorem getfrac_nil {s : Str} (h : s.takeWhile isDigit = []) : getfrac fl s = .ok (none, s) := scandigs_nil _ _ _ h

theorem getfrac_ne {s : Str} (h : s.takeWhile isDigit ≠ []) :
    getfrac fl s = (fracR fl (s.takeWhile isDigit) >>= fun v => .ok (some v, s.dropWhile isDigit)) := by
  cases hs : s.takeWhile isDigit with
  | nil => exact absurd hs h
  | cons c D =>
    rw [getfrac, scandigs_cons _ _ _ hs]
    simp [fracR]

theorem getexp_nil {s : Str} (h : s.takeWhile isDigit = []) : getexp s = .ok (none, s) := scandigs_nil _ _ _ h

theorem getexp_ne {s : Str} (h : s.takeWhile isDigit ≠ []) :
    getexp s = (expR (s.takeWhile isDigit) >>= fun v => .ok (some v, s.dropWhile isDigit)) := by
  cases hs : s.takeWhile isDigit with
  | nil => exact absurd hs h
  | cons c D =>
    rw [getexp, scandigs_cons _ _ _ hs]
    simp [expR]
    rfl

theorem sign_eq (s : Str) : sign s = (!isMinus (splitSign s).1, (splitSign s).2) := by
  unfold sign splitSign
  split <;> simp [isMinus]

/-- the exponent part: either there is one, or none, or there is a sign and a digit without an `e` -/
theorem expopt_eq (pos : Bool) (v : ℚ) (s : Str) (hs : s.takeWhile isDigit = []) : expopt fl pos v s =
    match parseEx s with
    | (some (_, g, X), rest) => (expR X >>= fun x => pow10 fl x >>= fun p =>
        (if isMinus g then chkf fl (v / p) else chkf fl (v * p)) >>= fun w => mkres pos w rest)
    | (none, rest) => if SignDigit s then expR ((splitSign s).2.takeWhile isDigit) >>= fun _ => .ok none
        else mkres pos v rest := by
  cases s with
  | nil =>
    have : ¬ SignDigit [] := by rintro ⟨g, d, t, h, -⟩; cases h
    simp [expopt, esym, sign, getexp, scandigs, parseEx, this]
    rfl
  | cons e t =>
    by_cases he : e = 101 ∨ e = 69
    · have hsd : ¬ SignDigit (e :: t) := by
        rintro ⟨g, d, t', h, hg, -⟩
        cases h
        rcases he with rfl | rfl <;> revert hg <;> decide
      simp only [expopt, esym, he, if_true, sign_eq, parseEx]
      generalize splitSign t = p
      obtain ⟨g, t1⟩ := p
      dsimp only
      by_cases hd : t1.takeWhile isDigit = []
      · rw [getexp_nil hd]
        simp only [hd, if_true, hsd, if_false]
        rfl
      · rw [getexp_ne hd]
        simp only [hd, if_false, bind_assoc]
        congr 1
        funext x
        show (pow10 fl x >>= _) = _
        congr 1
        funext p
        cases isMinus g <;> rfl
    · simp only [expopt, esym, he, if_false, sign_eq, parseEx]
      have hspl := splitSign_eq (e :: t)
      by_cases hsd : SignDigit (e :: t)
      · obtain ⟨g, d, t', h, hg, hd⟩ := hsd
        have hsd : SignDigit (e :: t) := ⟨g, d, t', h, hg, hd⟩
        cases h
        have hsplit : splitSign (e :: d :: t') = ([e], d :: t') := by
          apply splitSign_append (g := [e]) (t := d :: t')
          · rcases hg with rfl | rfl | rfl
            · right; left; rfl
            · right; right; left; rfl
            · right; right; right; rfl
          · intro c t2 h2
            cases h2
            have := dig_not_sign hd
            exact ⟨this.1, this.2.1, this.2.2.1⟩
        have hne : ((splitSign (e :: d :: t')).2).takeWhile isDigit ≠ [] := by
          rw [hsplit]
          simp [List.takeWhile_cons, (isDigit_iff d).mpr hd]
        rw [getexp_ne hne]
        simp only [hsd, if_true, bind_assoc]
        rfl
      · have hnil : ((splitSign (e :: t)).2).takeWhile isDigit = [] := by
          by_contra hc
          have hg := splitSign_sign (e :: t)
          generalize splitSign (e :: t) = p at *
          obtain ⟨g, t1⟩ := p
          dsimp only at *
          cases t1 with
          | nil => simp at hc
          | cons d t' =>
            have hd : IsDig 10 d := by
              by_contra hdd
              have : isDigit d = false := by
                rw [← isDigit_iff] at hdd; simpa using hdd
              simp [List.takeWhile_cons, this] at hc
            rcases isSign_cases hg with rfl | rfl | rfl | rfl
            · rw [List.nil_append] at hspl
              rw [hspl] at hs
              simp [List.takeWhile_cons, (isDigit_iff d).mpr hd] at hs
            · exact hsd ⟨43, d, t', hspl, Or.inl rfl, hd⟩
            · exact hsd ⟨126, d, t', hspl, Or.inr (Or.inl rfl), hd⟩
            · exact hsd ⟨45, d, t', hspl, Or.inr (Or.inr rfl), hd⟩
        rw [getexp_nil hnil]
        simp only [hsd, if_false]
        rfl

theorem ok_bind {α β : Type} (x : α) (f : α → R β) : ((Except.ok x : R α) >>= f) = f x := rfl

theorem takeWhile_dropWhile (s : Str) : (s.dropWhile isDigit).takeWhile isDigit = [] := by
  induction s with
  | nil => rfl
  | cons c t ih =>
    by_cases h : isDigit c = true
    · simpa [List.dropWhile_cons, h] using ih
    · simp [List.dropWhile_cons, List.takeWhile_cons, h]

/-- the whole scanner: `signDigit` is the case of a mantissa followed by a sign and a digit -/
theorem scan_eq (src : Str) : scan fl src =
    match parse (src.dropWhile Num.isSpace) with
    | none => .ok none
    | some (l, rest) =>
      if l.ex = none ∧ SignDigit rest then
        (manR fl l.D l.F >>= fun _ => expR ((splitSign rest).2.takeWhile isDigit) >>= fun _ => .ok none)
      else litR fl l >>= fun v => mkres (!isMinus l.sg) v rest := by
  unfold scan parse
  generalize src.dropWhile Num.isSpace = s
  dsimp only
  rw [sign_eq]
  generalize splitSign s = p
  obtain ⟨g, s1⟩ := p
  dsimp only
  have htd := takeWhile_dropWhile s1
  generalize hs2 : s1.dropWhile isDigit = s2 at *
  -- the fraction
  by_cases hdot : ∃ t, s2 = 46 :: t
  · obtain ⟨t, rfl⟩ := hdot
    have hps : pointsym (46 :: t) = (true, t) := rfl
    by_cases hF : t.takeWhile isDigit = []
    · have hpf : parseFrac (46 :: t) = ([], 46 :: t) := by rw [parseFrac_dot, if_pos hF]
      have hpe : parseEx (46 :: t) = (none, 46 :: t) := rfl
      rw [hpf, hpe]
      have hsd : ¬ SignDigit (46 :: t) := by
        rintro ⟨g, d, t', h, hg, -⟩
        cases h
        revert hg; decide
      by_cases hD : s1.takeWhile isDigit = []
      · rw [getint_nil fl hD]
        have hs1 : s1 = 46 :: t := by rw [← hs2]; exact (Num.takeWhile_nil_dropWhile hD).symm
        rw [ok_bind]
        dsimp only
        rw [hs1, hps]
        dsimp only
        rw [getfrac_nil fl hF]
        have hD2 : (46 :: t).takeWhile isDigit = [] := by rw [← hs1]; exact hD
        rw [hD2]
        rfl
      · rw [getint_ne fl hD, hs2]
        simp only [hD, false_and, if_false, hsd, and_false, litR, manR, if_true, bind_assoc]
        congr 1
        funext v
        rw [ok_bind]
        dsimp only
        rw [hps]
        dsimp only
        rw [getfrac_nil fl hF]
        rfl
    · have hpf : parseFrac (46 :: t) = (t.takeWhile isDigit, t.dropWhile isDigit) := by rw [parseFrac_dot, if_neg hF]
      rw [hpf]
      dsimp only
      have hex := fun pos v => expopt_eq fl pos v (t.dropWhile isDigit) (takeWhile_dropWhile t)
      by_cases hD : s1.takeWhile isDigit = []
      · rw [getint_nil fl hD]
        have hs1 : s1 = 46 :: t := by rw [← hs2]; exact (Num.takeWhile_nil_dropWhile hD).symm
        rw [ok_bind]
        dsimp only
        rw [hs1, hps]
        dsimp only
        have hD2 : (46 :: t).takeWhile isDigit = [] := by rw [← hs1]; exact hD
        rw [hD2, getfrac_ne fl hF, bind_assoc]
        show (fracR fl _ >>= fun v => expopt fl _ v _) = _
        simp only [hex]
        have hpe := parseEx_eq (t.dropWhile isDigit)
        generalize parseEx (t.dropWhile isDigit) = q at *
        obtain ⟨ex, s5⟩ := q
        cases ex with
        | some e =>
          obtain ⟨e, g2, X⟩ := e
          simp only [hF, and_false, if_false, litR, manR, if_true, reduceCtorEq, false_and, bind_assoc]
        | none =>
          dsimp only at hpe
          rw [List.nil_append] at hpe
          simp only [hF, and_false, if_false, litR, manR, if_true, true_and, hpe]
          by_cases hsd : SignDigit s5
          · simp only [hsd, if_true]
          · simp only [hsd, if_false, bind_assoc]
            rfl
      · rw [getint_ne fl hD, hs2, bind_assoc]
        have hbody : ∀ v : ℚ, ((Except.ok (some v, 46 :: t) : R (Option ℚ × Str)) >>= fun p =>
            match pointsym p.2 with
            | (decpt, src3) => getfrac fl src3 >>= fun q =>
              match p.1, decpt, q.1 with
              | none, true, some fval => expopt fl (!isMinus g) fval q.2
              | some _, false, some _ => .ok none
              | some ival, true, none => mkres (!isMinus g) ival p.2
              | some ival, false, none => expopt fl (!isMinus g) ival p.2
              | some ival, _, some fval => chkf fl (ival + fval) >>= fun v => expopt fl (!isMinus g) v q.2
              | _, _, _ => .ok none) =
            (fracR fl (t.takeWhile isDigit) >>= fun f => chkf fl (v + f) >>= fun w =>
              expopt fl (!isMinus g) w (t.dropWhile isDigit)) := by
          intro v
          show (getfrac fl t >>= _) = _
          rw [getfrac_ne fl hF, bind_assoc]
          rfl
        refine Eq.trans (congrArg (fun k => natR fl (s1.takeWhile isDigit) >>= k) (funext hbody)) ?_
        simp only [hex]
        have hpe := parseEx_eq (t.dropWhile isDigit)
        generalize parseEx (t.dropWhile isDigit) = q at *
        obtain ⟨ex, s5⟩ := q
        cases ex with
        | some e =>
          obtain ⟨e, g2, X⟩ := e
          simp only [hF, hD, and_false, if_false, litR, manR, reduceCtorEq, false_and, bind_assoc]
        | none =>
          dsimp only at hpe
          rw [List.nil_append] at hpe
          simp only [hF, hD, and_false, if_false, litR, manR, true_and, hpe]
          by_cases hsd : SignDigit s5
          · simp only [hsd, if_true, bind_assoc]
          · simp only [hsd, if_false, bind_assoc]
            rfl
  · have hps : pointsym s2 = (false, s2) := by
      cases s2 with
      | nil => rfl
      | cons c t =>
        have : c ≠ 46 := fun h => hdot ⟨t, by rw [h]⟩
        simp [pointsym, this]
    have hpf : parseFrac s2 = ([], s2) := by
      unfold parseFrac
      split
      · next t => exact absurd ⟨t, rfl⟩ hdot
      · rfl
    rw [hpf]
    dsimp only
    by_cases hD : s1.takeWhile isDigit = []
    · rw [getint_nil fl hD]
      have hs1 : s1 = s2 := by rw [← hs2]; exact (Num.takeWhile_nil_dropWhile hD).symm
      subst hs1
      rw [ok_bind]
      dsimp only
      rw [hps]
      dsimp only
      rw [getfrac_nil fl hD, if_pos ⟨hD, rfl⟩]
      rfl
    · rw [getint_ne fl hD, hs2, bind_assoc]
      have hex := fun pos v => expopt_eq fl pos v s2 htd
      have hbody : ∀ v : ℚ, ((Except.ok (some v, s2) : R (Option ℚ × Str)) >>= fun p =>
            match pointsym p.2 with
            | (decpt, src3) => getfrac fl src3 >>= fun q =>
              match p.1, decpt, q.1 with
              | none, true, some fval => expopt fl (!isMinus g) fval q.2
              | some _, false, some _ => .ok none
              | some ival, true, none => mkres (!isMinus g) ival p.2
              | some ival, false, none => expopt fl (!isMinus g) ival p.2
              | some ival, _, some fval => chkf fl (ival + fval) >>= fun v => expopt fl (!isMinus g) v q.2
              | _, _, _ => .ok none) = expopt fl (!isMinus g) v s2 := by
        intro v
        rw [ok_bind]
        dsimp only
        rw [hps]
        dsimp only
        rw [getfrac_nil fl htd]
        rfl
      refine Eq.trans (congrArg (fun k => natR fl (s1.takeWhile isDigit) >>= k) (funext hbody)) ?_
      simp only [hex]
      have hpe := parseEx_eq s2
      generalize parseEx s2 = q at *
      obtain ⟨ex, s5⟩ := q
      cases ex with
      | some e =>
        obtain ⟨e, g2, X⟩ := e
        simp only [hD, false_and, if_false, litR, manR, if_true, reduceCtorEq, bind_assoc]
      | none =>
        dsimp only at hpe
        rw [List.nil_append] at hpe
        simp only [hD, false_and, if_false, litR, manR, if_true, true_and, hpe]
        by_cases hsd : SignDigit s5
        · simp only [hsd, if_true]
        · simp only [hsd, if_false, bind_assoc]
          rfl

end Mosml.RealText
