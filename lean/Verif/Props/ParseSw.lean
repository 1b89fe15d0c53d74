import Verif.Props.Parse

/-!
# C59: space weather files
-/

set_option linter.unusedSectionVars false
set_option linter.unusedSimpArgs false

namespace Heyoka.EopSw

variable {K : Type*}

/-! ## Specification -/

/-- A field which may be empty. -/
def OptField (num : List Char → Option (XF K)) (s : List Char) (o : Option (XF K)) : Prop := s = [] ∧ o = none ∨ s ≠ [] ∧ ∃ x, num s = some x ∧ o = some x

/-- The fields of a line of a CelesTrak space weather file: the date is the first, AP_AVG the twenty-first, F10.7_OBS the twenty-fifth and
F10.7_OBS_CENTER81 the twenty-eighth. `date` is the reading of dates. -/
def SwLine (num : List Char → Option (XF K)) (date : List Char → XF K → Prop) (fs : List (List Char)) (mjd : XF K) (ap f107 f107a : Option (XF K)) : Prop :=
  28 ≤ fs.length ∧ date (fs.getD 0 []) mjd ∧ OptField num (fs.getD 20 []) ap ∧ OptField num (fs.getD 24 []) f107 ∧ OptField num (fs.getD 27 []) f107a

/-- The number in decimal notation with `k` digits. -/
def pad : Nat → Nat → List Char
  | 0, _ => []
  | k + 1, n => pad k (n / 10) ++ [Nat.digitChar (n % 10)]

/-- The date `yyyy-mm-dd`. -/
def isoDate (y m d : Nat) : List Char := ['-'].intercalate [pad 4 y, pad 2 m, pad 2 d]

example : isoDate 1991 6 1 = "1991-06-01".toList := by decide

/-! ## Dates -/

theorem pad_length : ∀ k n, (pad k n).length = k
  | 0, _ => rfl
  | k + 1, n => by simp [pad, pad_length k]

theorem digitChar_ok : ∀ d < 10, '0'.toNat ≤ (Nat.digitChar d).toNat ∧ (Nat.digitChar d).toNat ≤ '9'.toNat ∧
    (Nat.digitChar d).toNat - '0'.toNat = d := by decide

theorem digitChar_ne : ∀ d < 10, Nat.digitChar d ≠ '-' := by decide

theorem pad_ne : ∀ k n, '-' ∉ pad k n
  | 0, _ => by simp [pad]
  | k + 1, n => by
    simp only [pad, List.mem_append, List.mem_singleton, not_or]
    exact ⟨pad_ne k _, (digitChar_ne _ (Nat.mod_lt _ (by omega))).symm⟩

theorem digitsVal_append : ∀ (s t : List Char) (acc : Nat), digitsVal (s ++ t) acc = (digitsVal s acc).bind fun a => digitsVal t a
  | [], t, acc => by simp [digitsVal]
  | c :: cs, t, acc => by
    simp only [List.cons_append, digitsVal]
    split
    · exact digitsVal_append cs t _
    · rfl

theorem digitsVal_pad : ∀ k n acc, n < 10 ^ k → digitsVal (pad k n) acc = some (10 ^ k * acc + n)
  | 0, n, acc, h => by
    have : n = 0 := by simpa using h
    simp [pad, digitsVal, this]
  | k + 1, n, acc, h => by
    have hm : n % 10 < 10 := Nat.mod_lt _ (by omega)
    rw [pad, digitsVal_append, digitsVal_pad k (n / 10) acc (by rw [pow_succ] at h; omega)]
    obtain ⟨h1, h2, h3⟩ := digitChar_ok _ hm
    simp only [Option.bind_some, digitsVal]
    rw [if_pos ⟨h1, h2⟩, h3, pow_succ]
    congr 1
    have := Nat.div_add_mod n 10
    linarith

theorem digitsVal_skipZeros : ∀ s, digitsVal (skipZeros s) 0 = digitsVal s 0
  | [] => rfl
  | x :: xs => by
    rw [skipZeros]
    by_cases h : x = '0'
    · rw [if_pos h, digitsVal_skipZeros xs, digitsVal, if_pos (by rw [h]; decide), h]
      simp
    · rw [if_neg h]

theorem skipZeros_mem {c : Char} : ∀ {s : List Char}, c ∈ skipZeros s → c ∈ s
  | [], h => h
  | x :: xs, h => by
    rw [skipZeros] at h
    by_cases h0 : x = '0'
    · rw [if_pos h0] at h
      exact .tail _ (skipZeros_mem h)
    · rwa [if_neg h0] at h

theorem digitsVal_zero : ∀ {s : List Char}, digitsVal s 0 = some 0 → skipZeros s = []
  | [], _ => rfl
  | x :: xs, h => by
    rw [digitsVal] at h
    by_cases hc : '0'.toNat ≤ x.toNat ∧ x.toNat ≤ '9'.toNat
    · rw [if_pos hc] at h
      have mono : ∀ (t : List Char) (a b : Nat), digitsVal t a = some b → a ≤ b := by
        intro t
        induction t with
        | nil => intro a b h; simp [digitsVal] at h; omega
        | cons y ys ih =>
          intro a b h
          rw [digitsVal] at h
          split at h
          · have := ih _ _ h
            omega
          · simp at h
      have h0 := mono _ _ _ h
      have hx : x = '0' := by
        apply Char.ext
        apply UInt32.toNat_inj.1
        have e1 : x.val.toNat = x.toNat := rfl
        have e2 : '0'.val.toNat = '0'.toNat := rfl
        omega
      rw [skipZeros, if_pos hx]
      refine digitsVal_zero ?_
      rw [hx] at h
      simpa using h
    · rw [if_neg hc] at h
      simp at h

theorem intVal_digits {s : List Char} (h : s ≠ []) (h2 : '-' ∉ s) : intVal s = (digitsVal s 0).map fun n => (n : Int) := by
  cases s with
  | nil => exact absurd rfl h
  | cons c cs =>
    have hc : c ≠ '-' := fun e => h2 (by simp [e])
    unfold intVal
    split
    · rename_i heq
      simp at heq
    · rename_i heq
      simp only [List.cons.injEq] at heq
      exact absurd heq.1 hc
    · rfl

theorem parseYmd_pad {k n : Nat} (hk : 1 < k) (hn : n < 10 ^ k) : parseYmd (pad k n) = if n = 0 then .throw else .ok (n : Int) := by
  unfold parseYmd
  rw [pad_length, if_pos hk]
  have hv := digitsVal_pad k n 0 hn
  rw [Nat.mul_zero, Nat.zero_add] at hv
  by_cases h : n = 0
  · subst h
    rw [digitsVal_zero hv]
    simp [intVal]
  · have hne : skipZeros (pad k n) ≠ [] := by
      intro e
      have := digitsVal_skipZeros (pad k n)
      rw [e, hv] at this
      simp only [digitsVal, Option.some.injEq] at this
      exact h this.symm
    rw [intVal_digits hne (fun hm => pad_ne k n (skipZeros_mem hm)), digitsVal_skipZeros, hv, if_neg h]
    rfl

/-- **C59**: a date `yyyy-mm-dd` gives the modified Julian date for this day, and is rejected if the year, the month or the day is zero or
if there is no such day. -/
theorem sw_date (cal2jd : Int → Int → Int → Option K) {y m d : Nat} (hy : y < 10000) (hm : m < 100) (hd : d < 100) (x : XF K) :
    (swMjd cal2jd (isoDate y m d) = .ok x ↔ y ≠ 0 ∧ m ≠ 0 ∧ d ≠ 0 ∧ ∃ t, cal2jd y m d = some t ∧ x = .fin t) := by
  have hl : (isoDate y m d).length = 10 := by simp [isoDate, List.intercalate, pad_length]
  have hv : viewSplit '-' (isoDate y m d) = [pad 4 y, pad 2 m, pad 2 d] := by
    unfold isoDate
    rw [viewSplit_join (by simp [pad_ne]) (by simp), if_neg (by simp)]
  have e : isoDate y m d = pad 4 y ++ '-' :: (pad 2 m ++ '-' :: pad 2 d) := by simp [isoDate, List.intercalate]
  have c1 : columns (isoDate y m d) 0 4 = .ok (pad 4 y) := by
    rw [columns, if_pos (by omega), e, List.drop_zero, List.take_left' (pad_length 4 y)]
  have c2 : columns (isoDate y m d) 5 2 = .ok (pad 2 m) := by
    rw [columns, if_pos (by omega), e, List.append_cons, List.drop_left' (by simp [pad_length]), List.take_left' (pad_length 2 m)]
  have c3 : columns (isoDate y m d) 8 2 = .ok (pad 2 d) := by
    rw [columns, if_pos (by omega), e, show pad 4 y ++ '-' :: (pad 2 m ++ '-' :: pad 2 d) = (pad 4 y ++ '-' :: (pad 2 m ++ ['-'])) ++ pad 2 d by simp,
      List.drop_left' (by simp [pad_length]), List.take_of_length_le (by simp [pad_length])]
  unfold swMjd
  rw [if_neg (by simp [hl, hv]), c1, c2, c3]
  simp only [Res.bind_ok, parseYmd_pad (show 1 < 4 by omega) hy, parseYmd_pad (show 1 < 2 by omega) hm, parseYmd_pad (show 1 < 2 by omega) hd]
  by_cases h1 : y = 0
  · simp [h1]
  by_cases h2 : m = 0
  · simp [h1, h2]
  by_cases h3 : d = 0
  · simp [h1, h2, h3]
  simp only [h1, h2, h3, if_false, Res.bind_ok, ne_eq, not_false_eq_true, true_and]
  cases cal2jd y m d with
  | none => simp
  | some t => simp [eq_comm]

theorem swMjd_not_ub (cal2jd : Int → Int → Int → Option K) (s : List Char) : swMjd cal2jd s ≠ .ub := by
  unfold swMjd
  by_cases h : s.length ≠ 10 ∨ (viewSplit '-' s).length ≠ 3
  · rw [if_pos h]
    simp
  rw [if_neg h]
  push Not at h
  have hp : ∀ t, parseYmd t ≠ .ub := by
    intro t
    unfold parseYmd
    split <;> simp
  have hc : ∀ b n, b + n ≤ 10 → columns s b n ≠ .ub := by
    intro b n hb
    rw [columns, if_pos (by omega)]
    simp
  refine bind_not_ub (hc _ _ (by omega)) fun _ _ => bind_not_ub (hp _) fun _ _ => bind_not_ub (hc _ _ (by omega)) fun _ _ =>
    bind_not_ub (hp _) fun _ _ => bind_not_ub (hc _ _ (by omega)) fun _ _ => bind_not_ub (hp _) fun _ _ => ?_
  split <;> simp

/-- Finding S: the separators are counted but their positions are not checked, so that texts which are no dates are accepted: here
`-202-01x05` is read as the fifth of January of the year -202. -/
theorem sw_date_malformed (cal2jd : Int → Int → Int → Option K) {t : K} (h : cal2jd (-202) 1 5 = some t) :
    swMjd cal2jd "-202-01x05".toList = .ok (.fin t) := by
  have e1 : (viewSplit '-' "-202-01x05".toList).length = 3 := by decide
  have e2 : parseYmd "-202".toList = .ok (-202) := by decide
  have e3 : parseYmd "01".toList = .ok 1 := by decide
  have e4 : parseYmd "05".toList = .ok 5 := by decide
  have c1 : columns "-202-01x05".toList 0 4 = .ok "-202".toList := by decide
  have c2 : columns "-202-01x05".toList 5 2 = .ok "01".toList := by decide
  have c3 : columns "-202-01x05".toList 8 2 = .ok "05".toList := by decide
  unfold swMjd
  rw [if_neg (by rw [e1]; decide), c1, c2, c3]
  simp only [Res.bind_ok, e2, e3, e4, h]

/-! ## Lines -/

theorem swValue_ok {num : List Char → Option (XF K)} {s : List Char} {o : Option (XF K)} : swValue num s = .ok o ↔ OptField num s o := by
  unfold swValue OptField
  by_cases h : s = []
  · simp [h, eq_comm]
  · rw [if_neg (by simpa using h), bind_ok_iff]
    simp only [h, false_and, ne_eq, not_false_eq_true, true_and, false_or, parseDouble_ok, Res.ok.injEq]
    exact ⟨fun ⟨a, h1, h2⟩ => ⟨a, h1, h2.symm⟩, fun ⟨a, h1, h2⟩ => ⟨a, h1, h2.symm⟩⟩

theorem swValue_not_ub {num : List Char → Option (XF K)} {s : List Char} : swValue num s ≠ .ub := by
  unfold swValue
  split
  · simp
  · exact bind_not_ub parseDouble_not_ub fun _ _ => by simp

theorem swUpd_20 {num : List Char → Option (XF K)} {cal2jd : Int → Int → Int → Option K} {f : List Char} {r : SwRow K × Bool} :
    swUpd num cal2jd 20 f r = (swValue num f).bind fun o => Res.ok ({ r.1 with ap := o.getD r.1.ap }, r.2 || o.isNone) := by
  unfold swUpd
  cases swValue num f with
  | ok o => cases o <;> simp
  | throw => simp
  | ub => simp

theorem swUpd_24 {num : List Char → Option (XF K)} {cal2jd : Int → Int → Int → Option K} {f : List Char} {r : SwRow K × Bool} :
    swUpd num cal2jd 24 f r = (swValue num f).bind fun o => Res.ok ({ r.1 with f107 := o.getD r.1.f107 }, r.2 || o.isNone) := by
  unfold swUpd
  cases swValue num f with
  | ok o => cases o <;> simp
  | throw => simp
  | ub => simp

theorem swUpd_27 {num : List Char → Option (XF K)} {cal2jd : Int → Int → Int → Option K} {f : List Char} {r : SwRow K × Bool} :
    swUpd num cal2jd 27 f r = (swValue num f).bind fun o => Res.ok ({ r.1 with f107a := o.getD r.1.f107a }, r.2 || o.isNone) := by
  unfold swUpd
  cases swValue num f with
  | ok o => cases o <;> simp
  | throw => simp
  | ub => simp

theorem swUpd_not_ub {num : List Char → Option (XF K)} {cal2jd : Int → Int → Int → Option K} (i : Nat) (f : List Char) (r : SwRow K × Bool) :
    swUpd num cal2jd i f r ≠ .ub := by
  by_cases h0 : i = 0
  · subst h0
    exact bind_not_ub (swMjd_not_ub _ _) fun _ _ => by simp
  by_cases h1 : i = 20
  · subst h1
    rw [swUpd_20]
    exact bind_not_ub swValue_not_ub fun _ _ => by simp
  by_cases h2 : i = 24
  · subst h2
    rw [swUpd_24]
    exact bind_not_ub swValue_not_ub fun _ _ => by simp
  by_cases h3 : i = 27
  · subst h3
    rw [swUpd_27]
    exact bind_not_ub swValue_not_ub fun _ _ => by simp
  unfold swUpd
  split <;> first | omega | simp

theorem swRow_not_ub [Zero K] {num : List Char → Option (XF K)} {cal2jd : Int → Int → Int → Option K} (line : List Char) :
    swRow num cal2jd line ≠ .ub := by
  unfold swRow
  refine bind_not_ub (fieldLoop_not_ub swUpd_not_ub _ _ _) fun a _ => ?_
  split
  · simp
  · split <;> simp

theorem sw_fields [Zero K] {num : List Char → Option (XF K)} {cal2jd : Int → Int → Int → Option K} {fs : List (List Char)} (q : (SwRow K × Bool) × Nat)
    (hq : q.2 = 28) (z : SwRow K) :
    fieldLoop 27 (swUpd num cal2jd) fs 0 (z, false) = .ok q ↔
      ∃ mjd ap f107 f107a, SwLine num (fun s x => swMjd cal2jd s = .ok x) fs mjd ap f107 f107a ∧
        q = ((⟨mjd, ap.getD z.ap, f107.getD z.f107, f107a.getD z.f107a⟩, ap.isNone || f107.isNone || f107a.isNone), 28) := by
  by_cases hlen : 28 ≤ fs.length
  swap
  · constructor
    · intro h
      have := fieldLoop_count h (by omega)
      omega
    · rintro ⟨_, _, _, _, h, -⟩
      exact absurd h.1 hlen
  unfold SwLine
  rcases fs with _ | ⟨f0, fs⟩
  · simp at hlen
  rcases fs with _ | ⟨f1, fs⟩
  · simp at hlen
  rcases fs with _ | ⟨f2, fs⟩
  · simp at hlen
  rcases fs with _ | ⟨f3, fs⟩
  · simp at hlen
  rcases fs with _ | ⟨f4, fs⟩
  · simp at hlen
  rcases fs with _ | ⟨f5, fs⟩
  · simp at hlen
  rcases fs with _ | ⟨f6, fs⟩
  · simp at hlen
  rcases fs with _ | ⟨f7, fs⟩
  · simp at hlen
  rcases fs with _ | ⟨f8, fs⟩
  · simp at hlen
  rcases fs with _ | ⟨f9, fs⟩
  · simp at hlen
  rcases fs with _ | ⟨f10, fs⟩
  · simp at hlen
  rcases fs with _ | ⟨f11, fs⟩
  · simp at hlen
  rcases fs with _ | ⟨f12, fs⟩
  · simp at hlen
  rcases fs with _ | ⟨f13, fs⟩
  · simp at hlen
  rcases fs with _ | ⟨f14, fs⟩
  · simp at hlen
  rcases fs with _ | ⟨f15, fs⟩
  · simp at hlen
  rcases fs with _ | ⟨f16, fs⟩
  · simp at hlen
  rcases fs with _ | ⟨f17, fs⟩
  · simp at hlen
  rcases fs with _ | ⟨f18, fs⟩
  · simp at hlen
  rcases fs with _ | ⟨f19, fs⟩
  · simp at hlen
  rcases fs with _ | ⟨f20, fs⟩
  · simp at hlen
  rcases fs with _ | ⟨f21, fs⟩
  · simp at hlen
  rcases fs with _ | ⟨f22, fs⟩
  · simp at hlen
  rcases fs with _ | ⟨f23, fs⟩
  · simp at hlen
  rcases fs with _ | ⟨f24, fs⟩
  · simp at hlen
  rcases fs with _ | ⟨f25, fs⟩
  · simp at hlen
  rcases fs with _ | ⟨f26, fs⟩
  · simp at hlen
  rcases fs with _ | ⟨f27, fs⟩
  · simp at hlen
  have hend : ∀ (s : SwRow K × Bool), fieldLoop 27 (swUpd num cal2jd) fs 28 s = .ok (s, 28) := by
    intro s
    cases fs <;> simp [fieldLoop]
  have h0 : ∀ f r, swUpd num cal2jd 0 f r = (swMjd cal2jd f).bind fun x => Res.ok ({ r.1 with mjd := x }, r.2) := fun _ _ => rfl
  have n1 : ∀ f r, swUpd num cal2jd 1 f r = Res.ok r := fun _ _ => rfl
  have n2 : ∀ f r, swUpd num cal2jd 2 f r = Res.ok r := fun _ _ => rfl
  have n3 : ∀ f r, swUpd num cal2jd 3 f r = Res.ok r := fun _ _ => rfl
  have n4 : ∀ f r, swUpd num cal2jd 4 f r = Res.ok r := fun _ _ => rfl
  have n5 : ∀ f r, swUpd num cal2jd 5 f r = Res.ok r := fun _ _ => rfl
  have n6 : ∀ f r, swUpd num cal2jd 6 f r = Res.ok r := fun _ _ => rfl
  have n7 : ∀ f r, swUpd num cal2jd 7 f r = Res.ok r := fun _ _ => rfl
  have n8 : ∀ f r, swUpd num cal2jd 8 f r = Res.ok r := fun _ _ => rfl
  have n9 : ∀ f r, swUpd num cal2jd 9 f r = Res.ok r := fun _ _ => rfl
  have n10 : ∀ f r, swUpd num cal2jd 10 f r = Res.ok r := fun _ _ => rfl
  have n11 : ∀ f r, swUpd num cal2jd 11 f r = Res.ok r := fun _ _ => rfl
  have n12 : ∀ f r, swUpd num cal2jd 12 f r = Res.ok r := fun _ _ => rfl
  have n13 : ∀ f r, swUpd num cal2jd 13 f r = Res.ok r := fun _ _ => rfl
  have n14 : ∀ f r, swUpd num cal2jd 14 f r = Res.ok r := fun _ _ => rfl
  have n15 : ∀ f r, swUpd num cal2jd 15 f r = Res.ok r := fun _ _ => rfl
  have n16 : ∀ f r, swUpd num cal2jd 16 f r = Res.ok r := fun _ _ => rfl
  have n17 : ∀ f r, swUpd num cal2jd 17 f r = Res.ok r := fun _ _ => rfl
  have n18 : ∀ f r, swUpd num cal2jd 18 f r = Res.ok r := fun _ _ => rfl
  have n19 : ∀ f r, swUpd num cal2jd 19 f r = Res.ok r := fun _ _ => rfl
  have n21 : ∀ f r, swUpd num cal2jd 21 f r = Res.ok r := fun _ _ => rfl
  have n22 : ∀ f r, swUpd num cal2jd 22 f r = Res.ok r := fun _ _ => rfl
  have n23 : ∀ f r, swUpd num cal2jd 23 f r = Res.ok r := fun _ _ => rfl
  have n25 : ∀ f r, swUpd num cal2jd 25 f r = Res.ok r := fun _ _ => rfl
  have n26 : ∀ f r, swUpd num cal2jd 26 f r = Res.ok r := fun _ _ => rfl
  simp only [fieldLoop, h0, swUpd_20, swUpd_24, swUpd_27, n1, n2, n3, n4, n5, n6, n7, n8, n9, n10, n11, n12, n13, n14, n15, n16, n17, n18, n19, n21, n22, n23, n25, n26, Nat.reduceAdd, Nat.reduceLeDiff, Nat.zero_le, le_refl, if_true, Res.bind_ok, hend,
    bind_ok_iff, swValue_ok]
  simp only [List.getD_cons_succ, List.getD_cons_zero, hlen, true_and]
  constructor
  · rintro ⟨_, ⟨m, hm, e0⟩, _, ⟨o1, h1, e1⟩, _, ⟨o2, h2, e2⟩, _, ⟨o3, h3, e3⟩, h⟩
    cases e0; cases e1; cases e2; cases e3; cases h
    exact ⟨m, o1, o2, o3, ⟨hm, h1, h2, h3⟩, by simp⟩
  · rintro ⟨m, o1, o2, o3, ⟨hm, h1, h2, h3⟩, rfl⟩
    exact ⟨_, ⟨_, hm, rfl⟩, _, ⟨_, h1, rfl⟩, _, ⟨_, h2, rfl⟩, _, ⟨_, h3, rfl⟩, by simp⟩

/-- **C59**: a CelesTrak space weather file is accepted exactly if all the lines after the header, up to the end of the file, to the first
empty line or to the first line with a missing value, have the 28 fields of the format with a date and numbers; the table has one row for
each of the lines before. All other files are rejected with an exception. -/
theorem sw_parse [Zero K] (num : List Char → Option (XF K)) (cal2jd : Int → Int → Int → Option K) {header : List Char} {lines : List (List Char)}
    {text : List Char} (h : TextOf (header :: lines) text) :
    (∀ tbl, parseSw num cal2jd text = .ok tbl ↔
      Table (fun l r => l ≠ [] ∧ ∃ fs, LineOf ',' fs l ∧ SwLine num (fun s x => swMjd cal2jd s = .ok x) fs r.mjd (some r.ap) (some r.f107) (some r.f107a))
        (fun l => l = [] ∨ l ≠ [] ∧ ∃ fs, LineOf ',' fs l ∧ ∃ m a f c, SwLine num (fun s x => swMjd cal2jd s = .ok x) fs m a f c ∧
          (a = none ∨ f = none ∨ c = none)) lines tbl) ∧
      parseSw num cal2jd text ≠ .ub := by
  refine ⟨fun tbl => ?_, parseLines_not_ub swRow_not_ub _ _⟩
  unfold parseSw
  have key : ∀ l, l ≠ [] → ∀ fs, LineOf ',' fs l → ∀ o, swRow num cal2jd l = .ok o ↔ ∃ m a f c, SwLine num (fun s x => swMjd cal2jd s = .ok x) fs m a f c ∧
      o = if a.isNone || f.isNone || c.isNone then none else some ⟨m, a.getD (.fin 0), f.getD (.fin 0), c.getD (.fin 0)⟩ := by
    intro l hl fs hfs o
    obtain ⟨h1, h2, rfl⟩ := hfs
    unfold swRow
    rw [viewSplit_join h1 h2, if_neg (by rintro rfl; simp at hl), bind_ok_iff]
    constructor
    · rintro ⟨q, hq, h⟩
      by_cases h28 : q.2 ≠ 28
      · rw [if_pos h28] at h
        simp at h
      rw [if_neg h28] at h
      push Not at h28
      obtain ⟨m, a, f, c, hline, rfl⟩ := (sw_fields q h28 _).1 hq
      refine ⟨m, a, f, c, hline, ?_⟩
      by_cases hb : (a.isNone || f.isNone || c.isNone) = true
      · rw [if_pos hb] at h ⊢
        exact (Res.ok.inj h).symm
      · rw [if_neg hb] at h ⊢
        exact (Res.ok.inj h).symm
    · rintro ⟨m, a, f, c, hline, rfl⟩
      refine ⟨_, (sw_fields _ rfl _).2 ⟨m, a, f, c, hline, rfl⟩, ?_⟩
      rw [if_neg (by simp)]
      by_cases hb : (a.isNone || f.isNone || c.isNone) = true
      · rw [if_pos hb, if_pos hb]
      · rw [if_neg hb, if_neg hb]
  rw [viewSplit_text_drop h, parseLines_table
    (Row := fun l r => ∃ fs, LineOf ',' fs l ∧ SwLine num (fun s x => swMjd cal2jd s = .ok x) fs r.mjd (some r.ap) (some r.f107) (some r.f107a))
    (Stop := fun l => ∃ fs, LineOf ',' fs l ∧ ∃ m a f c, SwLine num (fun s x => swMjd cal2jd s = .ok x) fs m a f c ∧
          (a = none ∨ f = none ∨ c = none))]
  · intro l _ hl r
    constructor
    · intro h
      obtain ⟨fs, hfs⟩ := exists_fields ',' l
      obtain ⟨m, a, f, c, hline, h⟩ := (key l hl fs hfs _).1 h
      cases a <;> cases f <;> cases c <;> simp at h
      subst h
      exact ⟨fs, hfs, hline⟩
    · rintro ⟨fs, hfs, h⟩
      exact (key l hl fs hfs _).2 ⟨_, _, _, _, h, by simp⟩
  · intro l _ hl
    constructor
    · intro h
      obtain ⟨fs, hfs⟩ := exists_fields ',' l
      obtain ⟨m, a, f, c, hline, h⟩ := (key l hl fs hfs _).1 h
      refine ⟨fs, hfs, m, a, f, c, hline, ?_⟩
      cases a <;> cases f <;> cases c <;> simp at h <;> simp
    · rintro ⟨fs, hfs, m, a, f, c, hline, h⟩
      refine (key l hl fs hfs _).2 ⟨m, a, f, c, hline, ?_⟩
      rcases h with rfl | rfl | rfl <;> simp

/-! ## Examples -/

/-- A calendar for the examples: all months have thirty days. -/
def demoCal (y m d : Int) : Option Rat := if 1 ≤ m ∧ m ≤ 12 ∧ 1 ≤ d ∧ d ≤ 30 then some (360 * y + 30 * (m - 1) + d - 1) else none

/-- Two rows, then a row without the value of F10.7. -/
example : parseSw demoNum demoCal "h\n1991-06-01,,,,,,,,,,,,,,,,,,,,7,,,,190,,,201\n1991-06-02,,,,,,,,,,,,,,,,,,,,8,,,,191,,,202,3\n1991-06-03,,,,,,,,,,,,,,,,,,,,8,,,,,,,202\nx".toList =
    .ok [⟨.fin 716910, .fin 7, .fin 190, .fin 201⟩, ⟨.fin 716911, .fin 8, .fin 191, .fin 202⟩] := by decide +kernel

/-- A month which does not exist. -/
example : parseSw demoNum demoCal "h\n1991-13-01,,,,,,,,,,,,,,,,,,,,7,,,,190,,,201\n".toList = .throw := by decide +kernel

example : swMjd demoCal (isoDate 1991 6 1) = .ok (.fin 716910) := by decide +kernel

example : ∃ t, demoCal (-202) 1 5 = some t := ⟨_, rfl⟩

end Heyoka.EopSw
