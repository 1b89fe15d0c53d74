import Verif.EopSw.ParseLemmas
import Verif.EopSw.Model

/-!
# C59: parsing of the EOP and space weather files
-/

set_option linter.unusedSectionVars false
set_option linter.unusedSimpArgs false

namespace Heyoka.EopSw

variable {K : Type*}

/-! ## Specification -/

/-- The text consists of the given lines, separated by newlines. -/
def TextOf (ls : List (List Char)) (text : List Char) : Prop := (∀ l ∈ ls, '\n' ∉ l) ∧ ls ≠ [] ∧ text = ['\n'].intercalate ls

/-- The line consists of the given fields, separated by `sep`. -/
def LineOf (sep : Char) (fs : List (List Char)) (line : List Char) : Prop := (∀ f ∈ fs, sep ∉ f) ∧ fs ≠ [] ∧ line = [sep].intercalate fs

/-- The table has one row for each line up to the end of the lines, or up to the first line at which the data stops. -/
def Table {R : Type*} (Row : List Char → R → Prop) (Stop : List Char → Prop) (lines : List (List Char)) (tbl : List R) : Prop :=
  ∃ done rest, lines = done ++ rest ∧ List.Forall₂ Row done tbl ∧ (rest = [] ∨ ∃ l t, rest = l :: t ∧ Stop l)

/-- The fields of a line of a CelesTrak EOP file: date, MJD, x, y, UT1-UTC, LOD, dPsi, dEpsilon, dX, dY, ...; the last two are in
arcseconds, and in milliarcseconds in the table. -/
def CelestrakRow [Field K] (num : List Char → Option (XF K)) (fs : List (List Char)) (r : EopRow K) : Prop :=
  10 ≤ fs.length ∧ num (fs.getD 1 []) = some r.mjd ∧ num (fs.getD 2 []) = some r.pmx ∧ num (fs.getD 3 []) = some r.pmy ∧
    num (fs.getD 4 []) = some r.dut1 ∧ (∃ x, num (fs.getD 8 []) = some x ∧ r.dX = scalePos 1000 x) ∧
    ∃ x, num (fs.getD 9 []) = some x ∧ r.dY = scalePos 1000 x

/-- The fields of a line of an IERS long term file: MJD is the first, x the sixth, y the eighth, UT1-UTC the fifteenth, dX and dY the
twenty-fourth and twenty-sixth. -/
def LongTermRow (num : List Char → Option (XF K)) (fs : List (List Char)) (r : EopRow K) : Prop :=
  26 ≤ fs.length ∧ num (fs.getD 0 []) = some r.mjd ∧ num (fs.getD 5 []) = some r.pmx ∧ num (fs.getD 7 []) = some r.pmy ∧
    num (fs.getD 14 []) = some r.dut1 ∧ num (fs.getD 23 []) = some r.dX ∧ num (fs.getD 25 []) = some r.dY

/-- Columns `a` to `b` of a line, counted from one. -/
def cols (line : List Char) (a b : Nat) : List Char := (line.drop (a - 1)).take (b + 1 - a)

/-- All the characters are blanks. -/
def Blank (s : List Char) : Prop := ∀ c ∈ s, c = ' '

/-- The text is a number, after some blanks. -/
def NumText (num : List Char → Option (XF K)) (s : List Char) (x : XF K) : Prop :=
  ∃ k c t, s = List.replicate k ' ' ++ c :: t ∧ c ≠ ' ' ∧ num (c :: t) = some x

/-- The final value from Bulletin B if present, otherwise the value from Bulletin A. -/
def Value (num : List Char → Option (XF K)) (b a : List Char) (x : XF K) : Prop := NumText num b x ∨ Blank b ∧ NumText num a x

/-- No value. -/
def NoValue (b a : List Char) : Prop := Blank b ∧ Blank a

/-- The columns of a line of `finals2000A.all`, from the description of the format by the IERS: MJD 8-15; Bulletin A PM-x 19-27, PM-y 38-46,
UT1-UTC 59-68, dX 98-106, dY 117-125; Bulletin B PM-x 135-144, PM-y 145-154, UT1-UTC 155-165, dX 166-175, dY 176-185. -/
def RapidRow (num : List Char → Option (XF K)) (l : List Char) (r : EopRow K) : Prop :=
  185 ≤ l.length ∧ NumText num (cols l 8 15) r.mjd ∧ Value num (cols l 155 165) (cols l 59 68) r.dut1 ∧
    Value num (cols l 135 144) (cols l 19 27) r.pmx ∧ Value num (cols l 145 154) (cols l 38 46) r.pmy ∧
    Value num (cols l 166 175) (cols l 98 106) r.dX ∧ Value num (cols l 176 185) (cols l 117 125) r.dY

/-- A line in which a value is missing, the values before being valid. -/
def RapidStop (num : List Char → Option (XF K)) (l : List Char) : Prop :=
  185 ≤ l.length ∧ ∃ r : EopRow K, NumText num (cols l 8 15) r.mjd ∧ (NoValue (cols l 155 165) (cols l 59 68) ∨
    Value num (cols l 155 165) (cols l 59 68) r.dut1 ∧ (NoValue (cols l 135 144) (cols l 19 27) ∨
    Value num (cols l 135 144) (cols l 19 27) r.pmx ∧ (NoValue (cols l 145 154) (cols l 38 46) ∨
    Value num (cols l 145 154) (cols l 38 46) r.pmy ∧ (NoValue (cols l 166 175) (cols l 98 106) ∨
    Value num (cols l 166 175) (cols l 98 106) r.dX ∧ NoValue (cols l 176 185) (cols l 117 125)))))

/-! ## Lines -/

/-- All texts consist of lines. -/
theorem exists_lines (text : List Char) : ∃ ls, TextOf ls text := by
  obtain ⟨ls, h1, h2, h3⟩ := exists_pieces '\n' text
  exact ⟨ls, h2, h1, h3⟩

theorem exists_fields (sep : Char) (line : List Char) : ∃ fs, LineOf sep fs line := by
  obtain ⟨ls, h1, h2, h3⟩ := exists_pieces sep line
  exact ⟨ls, h2, h1, h3⟩

theorem parseLines_table {R : Type*} {row : List Char → Res (Option R)} {ls : List (List Char)} {tbl : List R} {Row : List Char → R → Prop}
    {Stop : List Char → Prop} (h1 : ∀ l ∈ ls, l ≠ [] → ∀ r, row l = .ok (some r) ↔ Row l r) (h2 : ∀ l ∈ ls, l ≠ [] → (row l = .ok none ↔ Stop l)) :
    parseLines row ls [] = .ok tbl ↔ Table (fun l r => l ≠ [] ∧ Row l r) (fun l => l = [] ∨ l ≠ [] ∧ Stop l) ls tbl := by
  rw [parseLines_ok]
  constructor
  · rintro ⟨done, rest, rows, rfl, h4, rfl, h6⟩
    refine ⟨done, rest, rfl, ?_, ?_⟩
    · refine List.Forall₂.imp ?_ (List.forall₂_and_left _ _ |>.2 ⟨fun l hl => hl, h4⟩)
      rintro l r ⟨hm, hn, h⟩
      exact ⟨hn, (h1 l (by simp [hm]) hn r).1 h⟩
    · refine h6.imp id ?_
      rintro ⟨l, t, rfl, h⟩
      refine ⟨l, t, rfl, ?_⟩
      by_cases hl : l = []
      · exact .inl hl
      · exact .inr ⟨hl, (h2 l (by simp) hl).1 (h.resolve_left hl)⟩
  · rintro ⟨done, rest, rfl, h4, h6⟩
    refine ⟨done, rest, tbl, rfl, ?_, rfl, ?_⟩
    · refine List.Forall₂.imp ?_ (List.forall₂_and_left _ _ |>.2 ⟨fun l hl => hl, h4⟩)
      rintro l r ⟨hm, hn, h⟩
      exact ⟨hn, (h1 l (by simp [hm]) hn r).2 h⟩
    · refine h6.imp id ?_
      rintro ⟨l, t, rfl, h⟩
      exact ⟨l, t, rfl, h.imp id fun h => (h2 l (by simp) h.1).2 h.2⟩

theorem viewSplit_text {ls : List (List Char)} {text : List Char} (h : TextOf ls text) : viewSplit '\n' text = if ls = [[]] then [] else ls := by
  obtain ⟨h1, h2, rfl⟩ := h
  exact viewSplit_join h1 h2

theorem viewSplit_text_drop {header : List Char} {ls : List (List Char)} {text : List Char} (h : TextOf (header :: ls) text) :
    (viewSplit '\n' text).drop 1 = ls := by
  rw [viewSplit_text h]
  split
  · rename_i h
    simp only [List.cons.injEq] at h
    simp [h.2]
  · rfl

/-! ## CSV files -/

theorem eopRow_ne_none [Zero K] {sep : Char} {last : Nat} {upd : Nat → List Char → EopRow K → Res (EopRow K)} {line : List Char} :
    eopRow sep last upd line ≠ .ok none := by
  unfold eopRow
  intro h
  obtain ⟨q, -, h⟩ := bind_ok_iff.1 h
  split at h <;> simp at h

theorem celestrak_row [Field K] {num : List Char → Option (XF K)} {fs : List (List Char)} {line : List Char} (h : LineOf ',' fs line) (hl : line ≠ [])
    (r : EopRow K) : eopRow ',' 9 (celestrakUpd num) line = .ok (some r) ↔ CelestrakRow num fs r := by
  obtain ⟨h1, h2, rfl⟩ := h
  unfold eopRow
  rw [viewSplit_join h1 h2, if_neg (by rintro rfl; simp at hl)]
  by_cases hlen : 10 ≤ fs.length
  swap
  · refine ⟨fun h => ?_, fun h => absurd h.1 hlen⟩
    obtain ⟨q, hq, h⟩ := bind_ok_iff.1 h
    have := fieldLoop_count hq (by omega)
    rw [if_pos (by omega)] at h
    simp at h
  unfold CelestrakRow
  clear h1 h2 hl
  rcases fs with _ | ⟨f0, fs⟩
  · simp at hlen
  rcases fs with _ | ⟨f1, fs⟩
  · simp at hlen
  rcases fs with _ | ⟨f2, fs⟩
  · simp at hlen
  rcases fs with _ | ⟨f3, fs⟩
  · simp at hlen
  rcases fs with _ | ⟨f4, fs⟩
  · simp at hlen
  rcases fs with _ | ⟨f5, fs⟩
  · simp at hlen
  rcases fs with _ | ⟨f6, fs⟩
  · simp at hlen
  rcases fs with _ | ⟨f7, fs⟩
  · simp at hlen
  rcases fs with _ | ⟨f8, fs⟩
  · simp at hlen
  rcases fs with _ | ⟨f9, fs⟩
  · simp at hlen
  have e : ∀ q : Res (EopRow K × Nat), (q.bind fun r => if r.2 ≠ 9 + 1 then Res.throw else .ok (some r.1)) = .ok (some r) ↔ q = .ok (r, 10) := by
    intro q
    cases q with
    | ok q =>
      simp only [Res.bind_ok, Res.ok.injEq]
      split_ifs with h
      · simp only [false_iff]
        rintro rfl
        simp at h
      · simp only [Res.ok.injEq, Option.some.injEq]
        constructor
        · rintro rfl
          push Not at h
          exact Prod.ext rfl h
        · rintro rfl
          rfl
    | throw => simp
    | ub => simp
  rw [e]
  have hend : ∀ (s : EopRow K), fieldLoop 9 (celestrakUpd num) fs 10 s = .ok (s, 10) := by
    intro s
    cases fs <;> simp [fieldLoop]
  simp only [fieldLoop, celestrakUpd, Nat.reduceAdd, Nat.reduceLeDiff, Nat.zero_le, le_refl, if_true, Res.bind_ok, hend, bind_ok_iff, parseDouble_ok]
  simp only [List.getD_cons_succ, List.getD_cons_zero, hlen, true_and, EopRow.zero]
  constructor
  · intro h
    obtain ⟨_, ⟨x1, h1, e1⟩, _, ⟨x2, h2, e2⟩, _, ⟨x3, h3, e3⟩, _, ⟨x4, h4, e4⟩, _, ⟨x5, h5, e5⟩, _, ⟨x6, h6, e6⟩, h⟩ := h
    cases e1; cases e2; cases e3; cases e4; cases e5; cases e6; cases h
    exact ⟨h1, h2, h3, h4, ⟨_, h5, rfl⟩, _, h6, rfl⟩
  · rintro ⟨h1, h2, h3, h4, ⟨x, h5, e5⟩, y, h6, e6⟩
    refine ⟨_, ⟨_, h1, rfl⟩, _, ⟨_, h2, rfl⟩, _, ⟨_, h3, rfl⟩, _, ⟨_, h4, rfl⟩, _, ⟨_, h5, rfl⟩, _, ⟨_, h6, rfl⟩, ?_⟩
    simp [← e5, ← e6]

theorem longTerm_row [Zero K] {num : List Char → Option (XF K)} {fs : List (List Char)} {line : List Char} (h : LineOf ';' fs line) (hl : line ≠ [])
    (r : EopRow K) : eopRow ';' 25 (longTermUpd num) line = .ok (some r) ↔ LongTermRow num fs r := by
  obtain ⟨h1, h2, rfl⟩ := h
  unfold eopRow
  rw [viewSplit_join h1 h2, if_neg (by rintro rfl; simp at hl)]
  by_cases hlen : 26 ≤ fs.length
  swap
  · refine ⟨fun h => ?_, fun h => absurd h.1 hlen⟩
    obtain ⟨q, hq, h⟩ := bind_ok_iff.1 h
    have := fieldLoop_count hq (by omega)
    rw [if_pos (by omega)] at h
    simp at h
  unfold LongTermRow
  clear h1 h2 hl
  rcases fs with _ | ⟨f0, fs⟩
  · simp at hlen
  rcases fs with _ | ⟨f1, fs⟩
  · simp at hlen
  rcases fs with _ | ⟨f2, fs⟩
  · simp at hlen
  rcases fs with _ | ⟨f3, fs⟩
  · simp at hlen
  rcases fs with _ | ⟨f4, fs⟩
  · simp at hlen
  rcases fs with _ | ⟨f5, fs⟩
  · simp at hlen
  rcases fs with _ | ⟨f6, fs⟩
  · simp at hlen
  rcases fs with _ | ⟨f7, fs⟩
  · simp at hlen
  rcases fs with _ | ⟨f8, fs⟩
  · simp at hlen
  rcases fs with _ | ⟨f9, fs⟩
  · simp at hlen
  rcases fs with _ | ⟨f10, fs⟩
  · simp at hlen
  rcases fs with _ | ⟨f11, fs⟩
  · simp at hlen
  rcases fs with _ | ⟨f12, fs⟩
  · simp at hlen
  rcases fs with _ | ⟨f13, fs⟩
  · simp at hlen
  rcases fs with _ | ⟨f14, fs⟩
  · simp at hlen
  rcases fs with _ | ⟨f15, fs⟩
  · simp at hlen
  rcases fs with _ | ⟨f16, fs⟩
  · simp at hlen
  rcases fs with _ | ⟨f17, fs⟩
  · simp at hlen
  rcases fs with _ | ⟨f18, fs⟩
  · simp at hlen
  rcases fs with _ | ⟨f19, fs⟩
  · simp at hlen
  rcases fs with _ | ⟨f20, fs⟩
  · simp at hlen
  rcases fs with _ | ⟨f21, fs⟩
  · simp at hlen
  rcases fs with _ | ⟨f22, fs⟩
  · simp at hlen
  rcases fs with _ | ⟨f23, fs⟩
  · simp at hlen
  rcases fs with _ | ⟨f24, fs⟩
  · simp at hlen
  rcases fs with _ | ⟨f25, fs⟩
  · simp at hlen
  have e : ∀ q : Res (EopRow K × Nat), (q.bind fun r => if r.2 ≠ 25 + 1 then Res.throw else .ok (some r.1)) = .ok (some r) ↔ q = .ok (r, 26) := by
    intro q
    cases q with
    | ok q =>
      simp only [Res.bind_ok, Res.ok.injEq]
      split_ifs with h
      · simp only [false_iff]
        rintro rfl
        simp at h
      · simp only [Res.ok.injEq, Option.some.injEq]
        constructor
        · rintro rfl
          push Not at h
          exact Prod.ext rfl h
        · rintro rfl
          rfl
    | throw => simp
    | ub => simp
  rw [e]
  have hend : ∀ (s : EopRow K), fieldLoop 25 (longTermUpd num) fs 26 s = .ok (s, 26) := by
    intro s
    cases fs <;> simp [fieldLoop]
  simp only [fieldLoop, longTermUpd, Nat.reduceAdd, Nat.reduceLeDiff, Nat.zero_le, le_refl, if_true, Res.bind_ok, hend, bind_ok_iff, parseDouble_ok]
  simp only [List.getD_cons_succ, List.getD_cons_zero, hlen, true_and, EopRow.zero]
  constructor
  · intro h
    obtain ⟨_, ⟨x1, h1, e1⟩, _, ⟨x2, h2, e2⟩, _, ⟨x3, h3, e3⟩, _, ⟨x4, h4, e4⟩, _, ⟨x5, h5, e5⟩, _, ⟨x6, h6, e6⟩, h⟩ := h
    cases e1; cases e2; cases e3; cases e4; cases e5; cases e6; cases h
    exact ⟨h1, h2, h3, h4, h5, h6⟩
  · rintro ⟨h1, h2, h3, h4, h5, h6⟩
    exact ⟨_, ⟨_, h1, rfl⟩, _, ⟨_, h2, rfl⟩, _, ⟨_, h3, rfl⟩, _, ⟨_, h4, rfl⟩, _, ⟨_, h5, rfl⟩, _, ⟨_, h6, rfl⟩, rfl⟩

theorem upd_not_ub {num : List Char → Option (XF K)} (f : List Char) (g : XF K → EopRow K) :
    ((parseDouble num f).bind fun x => Res.ok (g x)) ≠ .ub := bind_not_ub parseDouble_not_ub fun _ _ => by simp

theorem celestrakUpd_not_ub [Field K] {num : List Char → Option (XF K)} (i : Nat) (f : List Char) (r : EopRow K) : celestrakUpd num i f r ≠ .ub := by
  unfold celestrakUpd
  split <;> first | exact upd_not_ub _ _ | simp

theorem longTermUpd_not_ub {num : List Char → Option (XF K)} (i : Nat) (f : List Char) (r : EopRow K) : longTermUpd num i f r ≠ .ub := by
  unfold longTermUpd
  split <;> first | exact upd_not_ub _ _ | simp

theorem eopRow_not_ub [Zero K] {sep : Char} {last : Nat} {upd : Nat → List Char → EopRow K → Res (EopRow K)} (h : ∀ i f r, upd i f r ≠ .ub)
    (line : List Char) : eopRow sep last upd line ≠ .ub := by
  unfold eopRow
  refine bind_not_ub (fieldLoop_not_ub h _ _ _) fun a _ => ?_
  split <;> simp

/-- **C59**: a CelesTrak EOP file is accepted exactly if all the lines after the header, up to the end of the file or to the first empty
line, have the ten fields of the format with numbers in those which are used; the table then has these values, one row for each line.
A file is read without undefined behaviour, so that all other files are rejected with an exception. -/
theorem celestrak_parse [Field K] (num : List Char → Option (XF K)) {header : List Char} {lines : List (List Char)} {text : List Char}
    (h : TextOf (header :: lines) text) :
    (∀ tbl, parseCelestrak num text = .ok tbl ↔
      Table (fun l r => l ≠ [] ∧ ∃ fs, LineOf ',' fs l ∧ CelestrakRow num fs r) (fun l => l = []) lines tbl) ∧ parseCelestrak num text ≠ .ub := by
  refine ⟨fun tbl => ?_, parseLines_not_ub (eopRow_not_ub celestrakUpd_not_ub) _ _⟩
  unfold parseCelestrak
  rw [viewSplit_text_drop h, parseLines_table (Row := fun l r => ∃ fs, LineOf ',' fs l ∧ CelestrakRow num fs r) (Stop := fun _ => False)]
  · simp
  · intro l _ hl r
    constructor
    · intro h
      obtain ⟨fs, hfs⟩ := exists_fields ',' l
      exact ⟨fs, hfs, (celestrak_row hfs hl r).1 h⟩
    · rintro ⟨fs, hfs, h⟩
      exact (celestrak_row hfs hl r).2 h
  · intro l _ _
    simp [eopRow_ne_none]

/-- **C59**: the same for IERS long term files, with 26 fields separated by semicolons. -/
theorem longTerm_parse [Zero K] (num : List Char → Option (XF K)) {header : List Char} {lines : List (List Char)} {text : List Char}
    (h : TextOf (header :: lines) text) :
    (∀ tbl, parseLongTerm num text = .ok tbl ↔
      Table (fun l r => l ≠ [] ∧ ∃ fs, LineOf ';' fs l ∧ LongTermRow num fs r) (fun l => l = []) lines tbl) ∧ parseLongTerm num text ≠ .ub := by
  refine ⟨fun tbl => ?_, parseLines_not_ub (eopRow_not_ub longTermUpd_not_ub) _ _⟩
  unfold parseLongTerm
  rw [viewSplit_text_drop h, parseLines_table (Row := fun l r => ∃ fs, LineOf ';' fs l ∧ LongTermRow num fs r) (Stop := fun _ => False)]
  · simp
  · intro l _ hl r
    constructor
    · intro h
      obtain ⟨fs, hfs⟩ := exists_fields ';' l
      exact ⟨fs, hfs, (longTerm_row hfs hl r).1 h⟩
    · rintro ⟨fs, hfs, h⟩
      exact (longTerm_row hfs hl r).2 h
  · intro l _ _
    simp [eopRow_ne_none]

/-! ## IERS rapid files -/

theorem skipBlanks_nil {s : List Char} : skipBlanks s = [] ↔ Blank s := by
  induction s with
  | nil => simp [skipBlanks, Blank]
  | cons x xs ih =>
    rw [skipBlanks]
    by_cases h : x = ' '
    · rw [if_pos h, ih]
      simp [Blank, h]
    · rw [if_neg h]
      simp [Blank, h]

theorem skipBlanks_num {num : List Char → Option (XF K)} (hnum : num [] = none) {s : List Char} {x : XF K} :
    num (skipBlanks s) = some x ↔ NumText num s x := by
  induction s with
  | nil => simp [skipBlanks, NumText, hnum]
  | cons y ys ih =>
    rw [skipBlanks]
    by_cases h : y = ' '
    · rw [if_pos h, ih]
      constructor
      · rintro ⟨k, c, t, rfl, hc, hx⟩
        exact ⟨k + 1, c, t, by simp [h, List.replicate_succ], hc, hx⟩
      · rintro ⟨k, c, t, he, hc, hx⟩
        cases k with
        | zero =>
          simp only [List.replicate_zero, List.nil_append, List.cons.injEq] at he
          exact absurd (he.1.symm.trans h) hc
        | succ k =>
          simp only [List.replicate_succ, List.cons_append, List.cons.injEq] at he
          exact ⟨k, c, t, he.2, hc, hx⟩
    · rw [if_neg h]
      constructor
      · intro hx
        exact ⟨0, y, ys, rfl, h, hx⟩
      · rintro ⟨k, c, t, he, hc, hx⟩
        cases k with
        | zero =>
          simp only [List.replicate_zero, List.nil_append] at he
          rw [he]
          exact hx
        | succ k =>
          simp only [List.replicate_succ, List.cons_append, List.cons.injEq] at he
          exact absurd he.1 h

theorem not_blank_of_num {num : List Char → Option (XF K)} {s : List Char} {x : XF K} (h : NumText num s x) : ¬ Blank s := by
  obtain ⟨k, c, t, rfl, hc, -⟩ := h
  intro hb
  exact hc (hb c (by simp))

theorem columns_cols {l : List Char} {b n : Nat} (h : b + n ≤ l.length) : columns l b n = .ok (cols l (b + 1) (b + n)) := by
  unfold columns cols
  rw [if_pos h, Nat.add_sub_cancel]
  congr 3
  omega

theorem rapidField_some {num : List Char → Option (XF K)} (hnum : num [] = none) {l : List Char} {bB nB bA nA : Nat} (h1 : bB + nB ≤ l.length)
    (h2 : bA + nA ≤ l.length) {x : XF K} :
    rapidField num l bB nB bA nA = .ok (some x) ↔ Value num (cols l (bB + 1) (bB + nB)) (cols l (bA + 1) (bA + nA)) x := by
  unfold rapidField Value
  rw [columns_cols h1, Res.bind_ok]
  by_cases hb : Blank (cols l (bB + 1) (bB + nB))
  · rw [if_neg (by simp [skipBlanks_nil.2 hb]), columns_cols h2, Res.bind_ok]
    by_cases ha : Blank (cols l (bA + 1) (bA + nA))
    · rw [if_pos (by simp [skipBlanks_nil.2 ha])]
      simp only [Res.ok.injEq, reduceCtorEq, false_iff]
      rintro (h | ⟨-, h⟩)
      · exact not_blank_of_num h hb
      · exact not_blank_of_num h ha
    · rw [if_neg (by simpa [skipBlanks_nil] using ha), bind_ok_iff]
      simp only [parseDouble_ok, Res.ok.injEq, Option.some.injEq, exists_eq_right, skipBlanks_num hnum, hb, true_and]
      exact ⟨.inr, fun h => h.elim (fun h => absurd hb (not_blank_of_num h)) id⟩
  · rw [if_pos (by simpa [skipBlanks_nil] using hb), bind_ok_iff]
    simp only [parseDouble_ok, Res.ok.injEq, Option.some.injEq, exists_eq_right, skipBlanks_num hnum, hb, false_and, or_false]

theorem rapidField_none {num : List Char → Option (XF K)} {l : List Char} {bB nB bA nA : Nat} (h1 : bB + nB ≤ l.length)
    (h2 : bA + nA ≤ l.length) :
    rapidField num l bB nB bA nA = .ok none ↔ NoValue (cols l (bB + 1) (bB + nB)) (cols l (bA + 1) (bA + nA)) := by
  unfold rapidField NoValue
  rw [columns_cols h1, Res.bind_ok]
  by_cases hb : Blank (cols l (bB + 1) (bB + nB))
  · rw [if_neg (by simp [skipBlanks_nil.2 hb]), columns_cols h2, Res.bind_ok]
    by_cases ha : Blank (cols l (bA + 1) (bA + nA))
    · rw [if_pos (by simp [skipBlanks_nil.2 ha])]
      simp [hb, ha]
    · rw [if_neg (by simpa [skipBlanks_nil] using ha), bind_ok_iff]
      simp [ha]
  · rw [if_pos (by simpa [skipBlanks_nil] using hb), bind_ok_iff]
    simp [hb]

theorem rapidField_not_ub {num : List Char → Option (XF K)} {l : List Char} {bB nB bA nA : Nat} (h1 : bB + nB ≤ l.length)
    (h2 : bA + nA ≤ l.length) : rapidField num l bB nB bA nA ≠ .ub := by
  unfold rapidField
  rw [columns_cols h1, Res.bind_ok]
  split
  · exact bind_not_ub parseDouble_not_ub fun _ _ => by simp
  · rw [columns_cols h2, Res.bind_ok]
    split
    · simp
    · exact bind_not_ub parseDouble_not_ub fun _ _ => by simp

theorem orBreak_some {α R : Type*} {x : Res (Option α)} {f : α → Res (Option R)} {r : R} :
    orBreak x f = .ok (some r) ↔ ∃ a, x = .ok (some a) ∧ f a = .ok (some r) := by
  unfold orBreak
  rw [bind_ok_iff]
  constructor
  · rintro ⟨a, rfl, h⟩
    cases a with
    | none => simp at h
    | some a => exact ⟨a, rfl, h⟩
  · rintro ⟨a, rfl, h⟩
    exact ⟨some a, rfl, h⟩

theorem orBreak_none {α R : Type*} {x : Res (Option α)} {f : α → Res (Option R)} :
    orBreak x f = .ok none ↔ x = .ok none ∨ ∃ a, x = .ok (some a) ∧ f a = .ok none := by
  unfold orBreak
  rw [bind_ok_iff]
  constructor
  · rintro ⟨a, rfl, h⟩
    cases a with
    | none => exact .inl rfl
    | some a => exact .inr ⟨a, rfl, h⟩
  · rintro (rfl | ⟨a, rfl, h⟩)
    · exact ⟨none, rfl, rfl⟩
    · exact ⟨some a, rfl, h⟩

theorem orBreak_not_ub {α R : Type*} {x : Res (Option α)} {f : α → Res (Option R)} (h1 : x ≠ .ub) (h2 : ∀ a, f a ≠ .ub) : orBreak x f ≠ .ub := by
  unfold orBreak
  refine bind_not_ub h1 fun a _ => ?_
  cases a with
  | none => simp
  | some a => exact h2 a

theorem rapidMjd_ok {num : List Char → Option (XF K)} (hnum : num [] = none) {l : List Char} (h : 185 ≤ l.length) {x : XF K} :
    rapidMjd num l = .ok x ↔ NumText num (cols l 8 15) x := by
  unfold rapidMjd
  rw [columns_cols (by omega), Res.bind_ok, parseDouble_ok, skipBlanks_num hnum]

theorem rapid_row {num : List Char → Option (XF K)} (hnum : num [] = none) (l : List Char) (r : EopRow K) :
    rapidRow num l = .ok (some r) ↔ RapidRow num l r := by
  unfold rapidRow RapidRow
  by_cases h : l.length < 185
  · rw [if_pos h]
    simp only [reduceCtorEq, false_iff]
    intro h'
    omega
  have h' : 185 ≤ l.length := by omega
  rw [if_neg h, bind_ok_iff]
  simp only [rapidMjd_ok hnum h', orBreak_some, Res.ok.injEq, Option.some.injEq, h', true_and]
  constructor
  · rintro ⟨m, hm, a1, h1, a2, h2, a3, h3, a4, h4, a5, h5, rfl⟩
    exact ⟨hm, (rapidField_some hnum (by omega) (by omega)).1 h1, (rapidField_some hnum (by omega) (by omega)).1 h2,
      (rapidField_some hnum (by omega) (by omega)).1 h3, (rapidField_some hnum (by omega) (by omega)).1 h4,
      (rapidField_some hnum (by omega) (by omega)).1 h5⟩
  · rintro ⟨hm, h1, h2, h3, h4, h5⟩
    exact ⟨_, hm, _, (rapidField_some hnum (by omega) (by omega)).2 h1, _, (rapidField_some hnum (by omega) (by omega)).2 h2,
      _, (rapidField_some hnum (by omega) (by omega)).2 h3, _, (rapidField_some hnum (by omega) (by omega)).2 h4,
      _, (rapidField_some hnum (by omega) (by omega)).2 h5, rfl⟩

theorem rapid_stop {num : List Char → Option (XF K)} (hnum : num [] = none) (l : List Char) :
    rapidRow num l = .ok none ↔ RapidStop num l := by
  unfold rapidRow RapidStop
  by_cases h : l.length < 185
  · rw [if_pos h]
    simp only [reduceCtorEq, false_iff]
    rintro ⟨h', -⟩
    omega
  have h' : 185 ≤ l.length := by omega
  rw [if_neg h, bind_ok_iff]
  simp only [rapidMjd_ok hnum h', orBreak_none, Res.ok.injEq, reduceCtorEq, h', true_and, and_false, exists_false, or_false]
  constructor
  · rintro ⟨m, hm, h | ⟨a1, h1, h⟩⟩
    · exact ⟨⟨m, m, m, m, m, m⟩, hm, .inl ((rapidField_none (by omega) (by omega)).1 h)⟩
    have h1 := (rapidField_some hnum (by omega) (by omega)).1 h1
    rcases h with h | ⟨a2, h2, h⟩
    · exact ⟨⟨m, a1, m, m, m, m⟩, hm, .inr ⟨h1, .inl ((rapidField_none (by omega) (by omega)).1 h)⟩⟩
    have h2 := (rapidField_some hnum (by omega) (by omega)).1 h2
    rcases h with h | ⟨a3, h3, h⟩
    · exact ⟨⟨m, a1, a2, m, m, m⟩, hm, .inr ⟨h1, .inr ⟨h2, .inl ((rapidField_none (by omega) (by omega)).1 h)⟩⟩⟩
    have h3 := (rapidField_some hnum (by omega) (by omega)).1 h3
    rcases h with h | ⟨a4, h4, h⟩
    · exact ⟨⟨m, a1, a2, a3, m, m⟩, hm, .inr ⟨h1, .inr ⟨h2, .inr ⟨h3, .inl ((rapidField_none (by omega) (by omega)).1 h)⟩⟩⟩⟩
    have h4 := (rapidField_some hnum (by omega) (by omega)).1 h4
    exact ⟨⟨m, a1, a2, a3, a4, m⟩, hm, .inr ⟨h1, .inr ⟨h2, .inr ⟨h3, .inr ⟨h4, (rapidField_none (by omega) (by omega)).1 h⟩⟩⟩⟩⟩
  · rintro ⟨r, hm, h⟩
    refine ⟨_, hm, ?_⟩
    rcases h with h | ⟨h1, h⟩
    · exact .inl ((rapidField_none (by omega) (by omega)).2 h)
    refine .inr ⟨_, (rapidField_some hnum (by omega) (by omega)).2 h1, ?_⟩
    rcases h with h | ⟨h1, h⟩
    · exact .inl ((rapidField_none (by omega) (by omega)).2 h)
    refine .inr ⟨_, (rapidField_some hnum (by omega) (by omega)).2 h1, ?_⟩
    rcases h with h | ⟨h1, h⟩
    · exact .inl ((rapidField_none (by omega) (by omega)).2 h)
    refine .inr ⟨_, (rapidField_some hnum (by omega) (by omega)).2 h1, ?_⟩
    rcases h with h | ⟨h1, h⟩
    · exact .inl ((rapidField_none (by omega) (by omega)).2 h)
    exact .inr ⟨_, (rapidField_some hnum (by omega) (by omega)).2 h1, (rapidField_none (by omega) (by omega)).2 h⟩

theorem rapidRow_not_ub {num : List Char → Option (XF K)} (l : List Char) : rapidRow num l ≠ .ub := by
  unfold rapidRow
  by_cases h : l.length < 185
  · rw [if_pos h]
    simp
  rw [if_neg h]
  refine bind_not_ub ?_ fun _ _ => orBreak_not_ub (rapidField_not_ub (by omega) (by omega)) fun _ =>
    orBreak_not_ub (rapidField_not_ub (by omega) (by omega)) fun _ => orBreak_not_ub (rapidField_not_ub (by omega) (by omega)) fun _ =>
    orBreak_not_ub (rapidField_not_ub (by omega) (by omega)) fun _ => orBreak_not_ub (rapidField_not_ub (by omega) (by omega)) fun _ => by simp
  unfold rapidMjd
  rw [columns_cols (by omega), Res.bind_ok]
  exact parseDouble_not_ub

/-- **C59**: an IERS rapid file is accepted exactly if all the lines up to the end of the file, to the first empty line or to the first line in
which a value is missing in both bulletins are at least 185 characters long with numbers in the columns of the format; the values are
those of Bulletin B where present, of Bulletin A otherwise. No character is read beyond the end of a line, whatever the file contains;
all other files are rejected with an exception. -/
theorem rapid_parse {num : List Char → Option (XF K)} (hnum : num [] = none) {lines : List (List Char)} {text : List Char}
    (h : TextOf lines text) :
    (∀ tbl, parseRapid num text = .ok tbl ↔
      Table (fun l r => l ≠ [] ∧ RapidRow num l r) (fun l => l = [] ∨ RapidStop num l) lines tbl) ∧ parseRapid num text ≠ .ub := by
  refine ⟨fun tbl => ?_, parseLines_not_ub rapidRow_not_ub _ _⟩
  unfold parseRapid
  have e : ∀ l, (l = [] ∨ l ≠ [] ∧ RapidStop num l) ↔ (l = [] ∨ RapidStop num l) := by
    intro l
    by_cases hl : l = [] <;> simp [hl]
  simp only [← e]
  rw [← parseLines_table (row := rapidRow num) (fun l _ _ r => rapid_row hnum l r) (fun l _ _ => rapid_stop hnum l), viewSplit_text h]
  split
  · rename_i h
    rw [h]
    simp [parseLines]
  · rfl

/-! ## Examples -/

/-- A reading of numbers for the examples: sequences of digits. -/
def demoNum (s : List Char) : Option (XF Rat) := if s.isEmpty then none else (digitsVal s 0).map fun n => .fin n

theorem demoNum_nil : demoNum [] = none := rfl

example : parseCelestrak demoNum "h\nd,1,2,3,4,x,,y,5,6,z\nd,2,2,3,4,x,,y,5,6\n".toList =
    .ok [⟨.fin 1, .fin 4, .fin 2, .fin 3, .fin 5000, .fin 6000⟩, ⟨.fin 2, .fin 4, .fin 2, .fin 3, .fin 5000, .fin 6000⟩] := by decide +kernel

example : TextOf ["h".toList, "d,1".toList, []] "h\nd,1\n".toList := ⟨by decide, by simp, by decide⟩

/-- A line which is too short, and a field which is no number. -/
example : parseCelestrak demoNum "h\nd,1,2,3,4,x,,y,5".toList = .throw ∧ parseCelestrak demoNum "h\nd,1,2,3,4,x,,y,,6".toList = .throw := by
  decide +kernel

example : parseLongTerm demoNum "h\n1;;;;;2;;3;;;;;;;4;;;;;;;;;5;;6\n".toList = .ok [⟨.fin 1, .fin 4, .fin 2, .fin 3, .fin 5, .fin 6⟩] := by decide +kernel

/-- A rapid line with the given fields, for the examples. -/
def demoRapid (mjd xa ya ua dxa dya xb yb ub dxb dyb : String) : List Char :=
  List.replicate 7 ' ' ++ mjd.toList ++ List.replicate 3 ' ' ++ xa.toList ++ List.replicate 10 ' ' ++ ya.toList ++ List.replicate 12 ' ' ++ ua.toList ++
    List.replicate 29 ' ' ++ dxa.toList ++ List.replicate 10 ' ' ++ dya.toList ++ List.replicate 9 ' ' ++ xb.toList ++ yb.toList ++ ub.toList ++ dxb.toList ++ dyb.toList

/-- UT1-UTC from Bulletin B, the others from Bulletin A; the second line has no dY, so that the data stops. -/
example : parseRapid demoNum (demoRapid "   41684" "      120" "      136" "      8084" "      766" "      720" "          " "          " "      80841"
      "          " "          " ++ '\n' ::
    demoRapid "   41685" "      120" "      136" "      8084" "      766" "         " "          " "          " "      80841" "          " "          ") =
    .ok [⟨.fin 41684, .fin 80841, .fin 120, .fin 136, .fin 766, .fin 720⟩] := by decide +kernel

end Heyoka.EopSw
