import Verif.Compact.Model
import Verif.EopSw.Lemmas

/-!
# The names of the functions in compact mode
-/

set_option linter.unusedSectionVars false

namespace Heyoka.Sym

open EopSw (decimal decimal_ne_dot decimal_ne_nil)

variable {K : Type} [Field K] [LinearOrder K] [FmtName K]

mutual
/-- The expressions are equal up to the leaves and the parts of the functions not entering the LLVM names. -/
def SameShape : Expr K → Expr K → Prop
  | .fn f as, .fn g bs => f.llvmName = g.llvmName ∧ SameShapeL as bs
  | .fn _ _, _ => False
  | _, .fn _ _ => False
  | _, _ => True
/-- The same for lists. -/
def SameShapeL : List (Expr K) → List (Expr K) → Prop
  | [], [] => True
  | a :: as, b :: bs => SameShape a b ∧ SameShapeL as bs
  | _, _ => False
end

theorem append_sep_inj {c : Char} : ∀ {a b x y : List Char}, c ∉ a → c ∉ b → a ++ c :: x = b ++ c :: y → a = b ∧ x = y
  | [], [], x, y, _, _, h => by simpa using h
  | [], d :: b, x, y, _, hb, h => by
    simp only [List.nil_append, List.cons_append, List.cons.injEq] at h
    exact absurd h.1 fun h => hb (h ▸ List.mem_cons_self)
  | d :: a, [], x, y, ha, _, h => by
    simp only [List.nil_append, List.cons_append, List.cons.injEq] at h
    exact absurd h.1 fun h => ha (h ▸ List.mem_cons_self)
  | d :: a, e :: b, x, y, ha, hb, h => by
    simp only [List.cons_append, List.cons.injEq] at h
    have := append_sep_inj (fun h' => ha (List.mem_cons_of_mem _ h')) (fun h' => hb (List.mem_cons_of_mem _ h')) h.2
    exact ⟨by rw [h.1, this.1], this.2⟩

theorem compositeOk_fn {f : Fn K} {args : List (Expr K)} (h : compositeOk (.fn f args) = true) :
    (∀ c ∈ f.llvmName, c ≠ '(' ∧ c ≠ ')' ∧ c ≠ '#') ∧ compositeOkL args = true := by
  rw [compositeOk, Bool.and_eq_true, Bool.and_eq_true] at h
  refine ⟨fun c hc => ?_, h.2⟩
  have h2 := h.1.2
  rw [Bool.not_eq_true', List.any_eq_false] at h2
  have := h2 c hc
  simp [forbiddenChar] at this
  tauto

theorem compositeOkL_iff {l : List (Expr K)} : compositeOkL l = true ↔ ∀ e ∈ l, compositeOk e = true := by
  induction l with
  | nil => simp [compositeOkL]
  | cons a l ih => simp [compositeOkL, ih]

/-- The first character of the encoding. -/
theorem encTree_head {e : Expr K} (h : compositeOk e = true) (k : Nat) :
    ∃ c t, (encTree e k).1 = c :: t ∧ c ≠ ')' := by
  cases e with
  | fn f args =>
    have := (compositeOk_fn h).1
    rw [encTree]
    cases hn : f.llvmName with
    | nil => exact ⟨'(', _, rfl, by decide⟩
    | cons c t => exact ⟨c, _, rfl, (this c (by rw [hn]; exact List.mem_cons_self)).2.1⟩
  | _ => exact ⟨'#', _, rfl, by decide⟩

theorem encTree_fn_head {f : Fn K} {args : List (Expr K)} (h : compositeOk (.fn f args) = true) (k : Nat) :
    ∃ c t, (encTree (.fn f args) k).1 = c :: t ∧ c ≠ '#' := by
  have := (compositeOk_fn h).1
  rw [encTree]
  cases hn : f.llvmName with
  | nil => exact ⟨'(', _, rfl, by decide⟩
  | cons c t => exact ⟨c, _, rfl, (this c (by rw [hn]; exact List.mem_cons_self)).2.2⟩

theorem encTree_leaf {e : Expr K} (h : e.isFn = false) (k : Nat) : encTree e k = ('#' :: decimal k, k + 1) := by
  cases e with
  | fn f as => simp [Expr.isFn] at h
  | _ => rfl

theorem sameShape_leaf {e e' : Expr K} (h : e.isFn = false) (h' : e'.isFn = false) : SameShape e e' := by
  cases e <;> cases e' <;> simp [Expr.isFn, SameShape] at *

/-- What the encoding determines. -/
abbrev EncOut (e e' : List Char × Nat) (S : Prop) (r r' : List Char) : Prop := S ∧ e.2 = e'.2 ∧ r = r'

theorem enc_mixed {e e' : Expr K} (h : e.isFn = true) (h' : e'.isFn = false) (hc : compositeOk e = true) {k : Nat}
    {r r' : List Char} : (encTree e k).1 ++ r ≠ (encTree e' k).1 ++ r' := by
  intro he
  cases e with
  | fn f as =>
    obtain ⟨c, t, h1, h2⟩ := encTree_fn_head hc k
    rw [h1, encTree_leaf h'] at he
    simp only [List.cons_append, List.cons.injEq] at he
    exact h2 he.1
  | _ => simp [Expr.isFn] at h

mutual
theorem encTree_inj : (e e' : Expr K) → compositeOk e = true → compositeOk e' = true → ∀ (k : Nat) (r r' : List Char),
    (encTree e k).1 ++ r = (encTree e' k).1 ++ r' → EncOut (encTree e k) (encTree e' k) (SameShape e e') r r'
  | .fn f as, e', hc, hc', k, r, r', h => by
    cases e' with
    | fn g bs =>
      have h1 := compositeOk_fn hc
      have h2 := compositeOk_fn hc'
      rw [encTree, encTree] at h
      simp only [List.append_assoc, List.cons_append] at h
      obtain ⟨h3, h4⟩ := append_sep_inj (fun hm => (h1.1 _ hm).1 rfl) (fun hm => (h2.1 _ hm).1 rfl) h
      have h5 := encArgs_inj as bs h1.2 h2.2 k r r' h4
      refine ⟨⟨h3, h5.1⟩, ?_, h5.2.2⟩
      rw [encTree, encTree]
      exact h5.2.1
    | _ => exact absurd h (enc_mixed rfl rfl hc)
  | .num n, e', hc, hc', k, r, r', h => encLeaf_inj (by rfl) hc' k r r' h
  | .var n, e', hc, hc', k, r, r', h => encLeaf_inj (by rfl) hc' k r r' h
  | .par n, e', hc, hc', k, r, r', h => encLeaf_inj (by rfl) hc' k r r' h
theorem encLeaf_inj {e e' : Expr K} (he : e.isFn = false) (hc' : compositeOk e' = true) (k : Nat) (r r' : List Char)
    (h : (encTree e k).1 ++ r = (encTree e' k).1 ++ r') : EncOut (encTree e k) (encTree e' k) (SameShape e e') r r' := by
  cases he' : e'.isFn with
  | true => exact absurd h.symm (enc_mixed he' he hc')
  | false =>
    rw [encTree_leaf he, encTree_leaf he'] at h ⊢
    exact ⟨sameShape_leaf he he', rfl, by simpa using h⟩
theorem encArgs_inj : (as bs : List (Expr K)) → compositeOkL as = true → compositeOkL bs = true → ∀ (k : Nat)
    (r r' : List Char), (encArgs as k).1 ++ ([')'] ++ r) = (encArgs bs k).1 ++ ([')'] ++ r') →
    EncOut (encArgs as k) (encArgs bs k) (SameShapeL as bs) r r'
  | [], bs, _, hb, k, r, r', h => by
    cases bs with
    | nil => exact ⟨trivial, rfl, by simpa [encArgs] using h⟩
    | cons b bs =>
      obtain ⟨c, t, h1, h2⟩ := encTree_head (compositeOkL_iff.1 hb b List.mem_cons_self) k
      simp only [encArgs, h1, List.nil_append, List.cons_append, List.cons.injEq] at h
      exact absurd h.1.symm h2
  | a :: as, bs, ha, hb, k, r, r', h => by
    cases bs with
    | nil =>
      obtain ⟨c, t, h1, h2⟩ := encTree_head (compositeOkL_iff.1 ha a List.mem_cons_self) k
      simp only [encArgs, h1, List.nil_append, List.cons_append, List.cons.injEq] at h
      exact absurd h.1 h2
    | cons b bs =>
      rw [compositeOkL, Bool.and_eq_true] at ha hb
      simp only [encArgs] at h ⊢
      rw [List.append_assoc, List.append_assoc] at h
      obtain ⟨h1, h2, h3⟩ := encTree_inj a b ha.1 hb.1 k _ _ h
      rw [← h2] at h3 ⊢
      obtain ⟨h4, h5, h6⟩ := encRest_inj as bs ha.2 hb.2 _ r r' h3
      exact ⟨⟨h1, h4⟩, h5, h6⟩
theorem encRest_inj : (as bs : List (Expr K)) → compositeOkL as = true → compositeOkL bs = true → ∀ (k : Nat)
    (r r' : List Char), (encRest as k).1 ++ ([')'] ++ r) = (encRest bs k).1 ++ ([')'] ++ r') →
    EncOut (encRest as k) (encRest bs k) (SameShapeL as bs) r r'
  | [], bs, _, hb, k, r, r', h => by
    cases bs with
    | nil => exact ⟨trivial, rfl, by simpa [encRest] using h⟩
    | cons b bs => simp [encRest] at h
  | a :: as, bs, ha, hb, k, r, r', h => by
    cases bs with
    | nil => simp [encRest] at h
    | cons b bs =>
      rw [compositeOkL, Bool.and_eq_true] at ha hb
      simp only [encRest, List.cons_append, List.cons.injEq, true_and] at h ⊢
      rw [List.append_assoc, List.append_assoc] at h
      obtain ⟨h1, h2, h3⟩ := encTree_inj a b ha.1 hb.1 k _ _ h
      rw [← h2] at h3 ⊢
      obtain ⟨h4, h5, h6⟩ := encRest_inj as bs ha.2 hb.2 _ r r' h3
      exact ⟨⟨h1, h4⟩, h5, h6⟩
end

/-! ### The kinds of the arguments -/

theorem kindChars_append_inj {j k : Kind} {x y : List Char} (h : j.chars ++ x = k.chars ++ y) : j = k ∧ x = y := by
  cases j <;> cases k <;> simp [Kind.chars] at h <;> exact ⟨rfl, h⟩

theorem kindsRest_inj : ∀ {js ks : List Kind} {x y : List Char},
    (js.flatMap fun k => '_' :: k.chars) ++ '.' :: x = (ks.flatMap fun k => '_' :: k.chars) ++ '.' :: y → js = ks
  | [], [], _, _, _ => rfl
  | [], k :: ks, _, _, h => by simp at h
  | j :: js, [], _, _, h => by simp at h
  | j :: js, k :: ks, x, y, h => by
    simp only [List.flatMap_cons, List.cons_append, List.append_assoc, List.cons.injEq, true_and] at h
    obtain ⟨h1, h2⟩ := kindChars_append_inj h
    rw [h1, kindsRest_inj h2]

theorem kindsChars_inj {js ks : List Kind} {x y : List Char}
    (h : kindsChars js ++ '.' :: x = kindsChars ks ++ '.' :: y) : js = ks := by
  cases js with
  | nil =>
    cases ks with
    | nil => rfl
    | cons k ks => cases k <;> simp [kindsChars, Kind.chars] at h
  | cons j js =>
    cases ks with
    | nil => cases j <;> simp [kindsChars, Kind.chars] at h
    | cons k ks =>
      simp only [kindsChars, List.append_assoc] at h
      obtain ⟨h1, h2⟩ := kindChars_append_inj h
      rw [h1, kindsRest_inj h2]

theorem kindsOf_length : ∀ {l : List (Expr K)} {ks : List Kind}, kindsOf l = .ok ks → ks.length = l.length
  | [], ks, h => by cases h; rfl
  | e :: es, ks, h => by
    rw [kindsOf] at h
    cases h1 : kindOf e with
    | throw => rw [h1] at h; cases h
    | ub => rw [h1] at h; cases h
    | ok k =>
      cases h2 : kindsOf es with
      | throw => rw [h1, h2] at h; cases h
      | ub => rw [h1, h2] at h; cases h
      | ok ks' =>
        rw [h1, h2] at h
        cases h
        simp [kindsOf_length h2]

theorem sameShapeL_leaves : ∀ {as bs : List (Expr K)}, as.length = bs.length → (∀ a ∈ as, a.isFn = false) →
    (∀ b ∈ bs, b.isFn = false) → SameShapeL as bs
  | [], [], _, _, _ => trivial
  | a :: as, b :: bs, h, ha, hb => ⟨sameShape_leaf (ha a List.mem_cons_self) (hb b List.mem_cons_self),
      sameShapeL_leaves (by simpa using h) (fun x hx => ha x (List.mem_cons_of_mem _ hx))
        fun x hx => hb x (List.mem_cons_of_mem _ hx)⟩
  | [], _ :: _, h, _, _ => by simp at h
  | _ :: _, [], h, _, _ => by simp at h

theorem leavesL_flat {as : List (Expr K)} (h : ∀ a ∈ as, a.isFn = false) : Expr.leavesL as = as := by
  induction as with
  | nil => rfl
  | cons a as ih =>
    rw [Expr.leavesL, ih fun x hx => h x (List.mem_cons_of_mem _ hx)]
    have := h a List.mem_cons_self
    cases a with
    | fn f l => simp [Expr.isFn] at this
    | _ => rfl

/-- The names of the functions in compact mode can be told from those of composite functions and do not contain
the characters used as separators. -/
structure NameOk (f : Fn K) : Prop where
  chars : ∀ c ∈ f.llvmName, c ≠ '(' ∧ c ≠ ')' ∧ c ≠ '#' ∧ c ≠ '.' 
  nameChars : ∀ c ∈ f.name.toList, c ≠ '(' ∧ c ≠ ')' ∧ c ≠ '#'

theorem elemName_inj {e e' : Expr K} {nm : List Char} (he : compositeOk e = true) (he' : compositeOk e' = true)
    (h : elemName e = .ok nm) (h' : elemName e' = .ok nm) (hlen : e.leaves.length = e'.leaves.length) :
    SameShape e e' := by
  cases e with
  | fn f as =>
    cases e' with
    | fn g bs =>
      have h1 := (compositeOk_fn he).1
      have h2 := (compositeOk_fn he').1
      simp only [elemName] at h h'
      have key : ∀ (f : Fn K) (e : Expr K), e.isFn = true → (∀ c ∈ f.llvmName, c ≠ '(' ∧ c ≠ ')' ∧ c ≠ '#') →
          ['c', 'o', 'm', 'p', 'o', 's', 'i', 't', 'e', '|'] ++ (encTree e 0).1 ≠ f.llvmName := by
        intro f e hf h heq
        cases e with
        | fn g l =>
          rw [encTree] at heq
          exact (h '(' (by rw [← heq]; simp)).1 rfl
        | _ => simp [Expr.isFn] at hf
      split_ifs at h h' with c1 c2 c2
      · injection h with h
        injection h' with h'
        have h3 : (encTree (.fn f as) 0).1 ++ [] = (encTree (.fn g bs) 0).1 ++ [] := by
          rw [← h'] at h
          simpa using h
        exact (encTree_inj _ _ he he' 0 [] [] h3).1
      · injection h with h
        injection h' with h'
        exact absurd (h.trans h'.symm) (key g _ rfl h2)
      · injection h with h
        injection h' with h'
        exact absurd (h'.trans h.symm) (key f _ rfl h1)
      · injection h with h
        injection h' with h'
        have h3 : ∀ a ∈ as, a.isFn = false := by simpa using c1
        have h4 : ∀ a ∈ bs, a.isFn = false := by simpa using c2
        rw [Expr.leaves, Expr.leaves, leavesL_flat h3, leavesL_flat h4] at hlen
        exact ⟨h.trans h'.symm, sameShapeL_leaves hlen h3 h4⟩
    | _ => cases h'
  | _ => cases h

theorem mangled_ok {e : Expr K} {nm : List Char} (h : mangled e = .ok nm) : ∃ n ks, elemName e = .ok n ∧ '.' ∉ n ∧
    kindsOf e.leaves = .ok ks ∧ nm = n ++ '.' :: (kindsChars ks ++ ['.']) := by
  rw [mangled] at h
  cases h1 : elemName e with
  | throw => rw [h1] at h; cases h
  | ub => rw [h1] at h; cases h
  | ok n =>
    rw [h1, Res.bind_ok] at h
    split_ifs at h with hd
    cases h2 : kindsOf e.leaves with
    | throw => rw [h2] at h; cases h
    | ub => rw [h2] at h; cases h
    | ok ks =>
      rw [h2] at h
      injection h with h
      exact ⟨n, ks, rfl, fun hm => hd (List.any_eq_true.2 ⟨'.', hm, by simp⟩), rfl, h.symm⟩

/-- The mangled name determines the structure and the kinds of the arguments. -/
theorem mangled_inj {e e' : Expr K} {nm : List Char} (he : compositeOk e = true) (he' : compositeOk e' = true)
    (h : mangled e = .ok nm) (h' : mangled e' = .ok nm) :
    SameShape e e' ∧ kindsOf e.leaves = kindsOf e'.leaves := by
  obtain ⟨n, ks, h1, h2, h3, h4⟩ := mangled_ok h
  obtain ⟨n', ks', h1', h2', h3', h4'⟩ := mangled_ok h'
  rw [h4] at h4'
  obtain ⟨h5, h6⟩ := append_sep_inj h2 h2' h4'
  have h7 := kindsChars_inj h6
  subst h5 h7
  exact ⟨elemName_inj he he' h1 h1' (by rw [← kindsOf_length h3, ← kindsOf_length h3']), by rw [h3, h3']⟩

end Heyoka.Sym
