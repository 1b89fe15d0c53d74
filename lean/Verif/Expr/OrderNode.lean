import Verif.Expr.Order
import Verif.Expr.TravInst

/-! # The comparisons with the shortcuts for identical objects; hashing -/

set_option linter.unusedSectionVars false

namespace Heyoka.Sym

variable {K : Type} [Field K] [LinearOrder K] [FmtName K]

theorem Expr.beq_refl (a : Expr K) : a.beq a = true := (Expr.beq_iff _ _).2 (Expr.cmp_self_eq a)

theorem Expr.beqL_refl (as : List (Expr K)) : Expr.beqL as as = true := by
  induction as with
  | nil => simp [Expr.beqL]
  | cons a as ih => simp [Expr.beqL, ih, Expr.beq_refl]

theorem Expr.bltL_self (as : List (Expr K)) : Expr.bltL as as = false := by
  induction as with
  | nil => simp [Expr.bltL]
  | cons a as ih =>
    have : a.blt a = false := by
      rw [Bool.eq_false_iff]; intro h
      rw [Expr.blt_iff, Expr.cmp_self_eq] at h; cases h
    simp [Expr.bltL, ih, this]

theorem Node.beq_eq_aux {U : Node K → Prop} (hU : Consistent U) (n : Nat) :
    ∀ a b : Node K, sizeOf a ≤ n → U a → U b → a.beq b = a.toExpr.beq b.toExpr := by
  induction n with
  | zero => intro a b h; cases a <;> simp at h
  | succ n ih =>
    intro a b hsz ha hb
    cases a <;> cases b <;> try (simp [Node.beq, Node.toExpr, Expr.beq]; done)
    rename_i id sid f as id' sid' g bs
    have hL : ∀ as bs : List (Node K), (∀ a ∈ as, sizeOf a ≤ n ∧ U a) → (∀ b ∈ bs, U b) →
        Node.beqL as bs = Expr.beqL (Node.toExprL as) (Node.toExprL bs) := by
      intro as
      induction as with
      | nil => intro bs _ _; cases bs <;> simp [Node.beqL, Node.toExprL, Expr.beqL]
      | cons a as iha =>
        intro bs h h'
        cases bs with
        | nil => simp [Node.beqL, Node.toExprL, Expr.beqL]
        | cons b bs =>
          simp only [Node.beqL, Node.toExprL, Expr.beqL]
          rw [ih a b (h a List.mem_cons_self).1 (h a List.mem_cons_self).2 (h' b List.mem_cons_self),
            iha bs (fun x hx => h x (List.mem_cons_of_mem _ hx))
              fun x hx => h' x (List.mem_cons_of_mem _ hx)]
    simp only [Node.beq, Node.toExpr, Expr.beq]
    by_cases hid : id = id'
    · subst hid
      have := hU.id_inj ha hb
      cases this
      simp [Expr.beqL_refl]
    · by_cases hn : f.name = g.name
      · by_cases hs : sameArgs sid sid' = true
        · obtain ⟨k, rfl, rfl⟩ : ∃ k, sid = some k ∧ sid' = some k := by
            cases sid <;> cases sid' <;> simp_all [sameArgs]
          have := hU.sid_inj ha hb
          subst this
          simp [hid, hn, sameArgs, Expr.beqL_refl]
        · rw [← hL as bs (fun a ha' => ⟨by
            have := List.sizeOf_lt_of_mem ha'
            simp at hsz; omega, hU.closed ha a ha'⟩) (fun b hb' => hU.closed hb b hb')]
          simp [hid, hn, hs]
      · simp [hid, hn]

/-- The shortcuts do not change the result of `operator==`. -/
theorem Node.beq_eq {U : Node K → Prop} (hU : Consistent U) {a b : Node K} (ha : U a) (hb : U b) :
    a.beq b = a.toExpr.beq b.toExpr := Node.beq_eq_aux hU _ a b (le_refl _) ha hb

theorem Node.blt_eq_aux {U : Node K → Prop} (hU : Consistent U) (n : Nat) :
    ∀ a b : Node K, sizeOf a + sizeOf b ≤ n → U a → U b → a.blt b = a.toExpr.blt b.toExpr := by
  induction n with
  | zero => intro a b h; cases a <;> simp at h
  | succ n ih =>
    intro a b hsz ha hb
    cases a <;> cases b <;> try (simp [Node.blt, Node.toExpr, Expr.blt]; done)
    rename_i id sid f as id' sid' g bs
    have hL : ∀ as bs : List (Node K), (∀ a ∈ as, ∀ b ∈ bs, sizeOf a + sizeOf b ≤ n) →
        (∀ a ∈ as, U a) → (∀ b ∈ bs, U b) →
        Node.bltL as bs = Expr.bltL (Node.toExprL as) (Node.toExprL bs) := by
      intro as
      induction as with
      | nil => intro bs _ _ _; cases bs <;> simp [Node.bltL, Node.toExprL, Expr.bltL]
      | cons a as iha =>
        intro bs h h1 h2
        cases bs with
        | nil => simp [Node.bltL, Node.toExprL, Expr.bltL]
        | cons b bs =>
          have hab := h a List.mem_cons_self b List.mem_cons_self
          simp only [Node.bltL, Node.toExprL, Expr.bltL]
          rw [ih a b hab (h1 a List.mem_cons_self) (h2 b List.mem_cons_self),
            ih b a (by omega) (h2 b List.mem_cons_self) (h1 a List.mem_cons_self),
            iha bs (fun x hx y hy => h x (List.mem_cons_of_mem _ hx) y (List.mem_cons_of_mem _ hy))
              (fun x hx => h1 x (List.mem_cons_of_mem _ hx))
              fun x hx => h2 x (List.mem_cons_of_mem _ hx)]
    simp only [Node.blt, Node.toExpr, Expr.blt]
    by_cases hid : id = id'
    · subst hid
      have := hU.id_inj ha hb
      cases this
      simp [Expr.bltL_self]
    · by_cases h1 : f.name < g.name
      · simp [hid, h1]
      by_cases h2 : g.name < f.name
      · simp [hid, h1, h2]
      by_cases hs : sameArgs sid sid' = true
      · obtain ⟨k, rfl, rfl⟩ : ∃ k, sid = some k ∧ sid' = some k := by
          cases sid <;> cases sid' <;> simp_all [sameArgs]
        have := hU.sid_inj ha hb
        subst this
        simp [hid, h1, h2, sameArgs, Expr.bltL_self]
      · rw [← hL as bs (fun a ha' b hb' => by
          have h1 := List.sizeOf_lt_of_mem ha'
          have h2 := List.sizeOf_lt_of_mem hb'
          simp at hsz; omega) (fun a ha' => hU.closed ha a ha') (fun b hb' => hU.closed hb b hb')]
        simp [hid, h1, h2, hs]

/-- The shortcuts do not change the result of `operator<`. -/
theorem Node.blt_eq {U : Node K → Prop} (hU : Consistent U) {a b : Node K} (ha : U a) (hb : U b) :
    a.blt b = a.toExpr.blt b.toExpr := Node.blt_eq_aux hU _ a b (le_refl _) ha hb

/-! ### Hashing -/

/-- The hash functions of the standard library and of Boost used for expressions. -/
structure Hashers (K : Type) where
  /-- `std::hash` of a floating-point value -/
  fp : NumTy → FVal K → Nat
  /-- `std::hash<std::size_t>`, `std::hash<std::uint32_t>` -/
  nat : Nat → Nat
  /-- `std::hash<std::string>` -/
  str : String → Nat
  /-- `boost::hash_combine()` with the hash of an argument -/
  comb : Nat → Nat → Nat
  /-- `boost::hash_combine()` with a name -/
  combName : Nat → String → Nat

/-- The standard library's guarantee: equal values have equal hashes. -/
def Hashers.Ok (H : Hashers K) : Prop :=
  ∀ t (a b : FVal K), a.feq b = true → H.fp t a = H.fp t b

/-- The hash of a leaf (`src/number.cpp` 154-170, `src/variable.cpp` 69, `src/param.cpp` 53). -/
def Hashers.leaf (H : Hashers K) : Expr K → Nat
  | .num n => n.hash H.fp H.nat
  | .var s => H.str s
  | .par i => H.nat i
  | .fn _ _ => 0

/-- `hash()` (`src/expression_basic.cpp` 391-536). -/
def Hashers.trav (H : Hashers K) : Trav K Nat Nat :=
  hashTrav 0 H.comb H.leaf fun s f => H.combName s f.name

mutual
/-- The hash of an expression by plain recursion. -/
def Hashers.expr (H : Hashers K) : Expr K → Nat
  | .fn f args => H.combName ((Hashers.exprL H args).foldl H.comb 0) f.name
  | .num n => H.leaf (.num n)
  | .var s => H.leaf (.var s)
  | .par i => H.leaf (.par i)
/-- The hashes of a list of expressions. -/
def Hashers.exprL (H : Hashers K) : List (Expr K) → List Nat
  | [] => []
  | e :: es => Hashers.expr H e :: Hashers.exprL H es
end

theorem Hashers.exprL_eq (H : Hashers K) (es : List (Expr K)) : H.exprL es = es.map H.expr := by
  induction es with
  | nil => simp [Hashers.exprL]
  | cons e es ih => simp [Hashers.exprL, ih]

theorem Hashers.naive_eq (H : Hashers K) (e : Expr K) : H.trav.naive e = .ok (H.expr e) := by
  induction e using Expr.ind with
  | num n => simp [Trav.naive, Hashers.trav, hashTrav, Hashers.expr]
  | var n => simp [Trav.naive, Hashers.trav, hashTrav, Hashers.expr]
  | par n => simp [Trav.naive, Hashers.trav, hashTrav, Hashers.expr]
  | fn f args ih =>
    have := Trav.naiveL_congr ih
    rw [Trav.naive, this, Hashers.expr, Hashers.exprL_eq]
    simp [Hashers.trav, hashTrav]

theorem Hashers.num_of_beq {H : Hashers K} (hH : H.Ok) {a b : Num K} (h : a.beq b = true) :
    a.hash H.fp H.nat = b.hash H.fp H.nat := by
  obtain ⟨s, x⟩ := a
  obtain ⟨t, y⟩ := b
  simp only [Num.beq] at h
  by_cases hst : s = t
  · subst hst
    simp only [if_true] at h
    simp only [Num.hash]
    cases x <;> cases y <;> simp [FVal.isNan, FVal.feq, FVal.isZero] at h ⊢
    · exact hH _ _ _ (by simp [FVal.feq, FVal.isZero, h])
    · exact hH _ _ _ (by simp [FVal.feq, h])
    · rw [h]
  · simp [hst] at h

theorem Hashers.expr_of_beq_aux {H : Hashers K} (hH : H.Ok) (n : Nat) : ∀ a b : Expr K,
    sizeOf a ≤ n → a.beq b = true → H.expr a = H.expr b := by
  induction n with
  | zero => intro a b h; cases a <;> simp at h
  | succ n ih =>
    intro a b hsz h
    cases a <;> cases b <;> try (simp [Expr.beq] at h; done)
    · simp only [Hashers.expr, Hashers.leaf]
      exact Hashers.num_of_beq hH (by simpa [Expr.beq] using h)
    · simp only [Expr.beq, beq_iff_eq] at h
      rw [h]
    · simp only [Expr.beq, beq_iff_eq] at h
      rw [h]
    · rename_i f as g bs
      have hL : ∀ as bs : List (Expr K), (∀ a ∈ as, sizeOf a ≤ n) → Expr.beqL as bs = true →
          H.exprL as = H.exprL bs := by
        intro as
        induction as with
        | nil => intro bs _ h; cases bs <;> simp [Expr.beqL] at h ⊢
        | cons a as iha =>
          intro bs h h'
          cases bs with
          | nil => simp [Expr.beqL] at h'
          | cons b bs =>
            simp only [Expr.beqL, Bool.and_eq_true] at h'
            rw [Hashers.exprL, Hashers.exprL, ih a b (h a List.mem_cons_self) h'.1,
              iha bs (fun x hx => h x (List.mem_cons_of_mem _ hx)) h'.2]
      simp only [Expr.beq, Bool.and_eq_true, beq_iff_eq] at h
      rw [Hashers.expr, Hashers.expr, h.1, hL as bs (fun a ha => by
        have := List.sizeOf_lt_of_mem ha
        simp at hsz; omega) h.2]

/-! ### Equal expressions have equal values -/

mutual
/-- Every function symbol occurring in an expression satisfies `P`. -/
def Expr.FnAll (P : Fn K → Prop) : Expr K → Prop
  | .fn f args => P f ∧ Expr.FnAllL P args
  | _ => True
/-- Every function symbol occurring in a list of expressions satisfies `P`. -/
def Expr.FnAllL (P : Fn K → Prop) : List (Expr K) → Prop
  | [] => True
  | e :: es => Expr.FnAll P e ∧ Expr.FnAllL P es
end

/-- Among the function symbols satisfying `P`, the name determines the meaning. -/
def NameSound [Interp K] (P : Fn K → Prop) : Prop :=
  ∀ f g : Fn K, P f → P g → f.name = g.name → Interp.app f = Interp.app g ∧ (f = .time ↔ g = .time)

theorem Expr.eval_of_beq_aux [Interp K] {P : Fn K → Prop} (hP : NameSound P)
    (v : Env K) (n : Nat) : ∀ a b : Expr K, sizeOf a ≤ n → a.FnAll P → b.FnAll P →
      a.beq b = true → a.eval v = b.eval v := by
  induction n with
  | zero => intro a b h; cases a <;> simp at h
  | succ n ih =>
    intro a b hsz ha hb h
    cases a <;> cases b <;> try (simp [Expr.beq] at h; done)
    · rename_i n m
      simp only [Expr.eval_num, Num.toK?]
      obtain ⟨s, x⟩ := n
      obtain ⟨t, y⟩ := m
      simp only [Expr.beq, Num.beq] at h
      by_cases hst : s = t
      · simp only [hst, if_true] at h
        cases x <;> cases y <;> simp [FVal.isNan, FVal.feq, FVal.isZero] at h ⊢ <;> simp [h]
      · simp [hst] at h
    · simp only [Expr.beq, beq_iff_eq] at h
      rw [h]
    · simp only [Expr.beq, beq_iff_eq] at h
      rw [h]
    · rename_i f as g bs
      have hL : ∀ as bs : List (Expr K), (∀ a ∈ as, sizeOf a ≤ n) → Expr.FnAllL P as →
          Expr.FnAllL P bs → Expr.beqL as bs = true →
          Expr.evalL v as = Expr.evalL v bs ∧ as.length = bs.length := by
        intro as
        induction as with
        | nil => intro bs _ _ _ h; cases bs <;> simp [Expr.beqL] at h ⊢
        | cons a as iha =>
          intro bs h hpa hpb h'
          cases bs with
          | nil => simp [Expr.beqL] at h'
          | cons b bs =>
            simp only [Expr.beqL, Bool.and_eq_true] at h'
            simp only [Expr.FnAllL] at hpa hpb
            have h1 := iha bs (fun x hx => h x (List.mem_cons_of_mem _ hx)) hpa.2 hpb.2 h'.2
            rw [Expr.evalL_cons, Expr.evalL_cons, ih a b (h a List.mem_cons_self) hpa.1 hpb.1 h'.1,
              h1.1]
            exact ⟨rfl, by simp [h1.2]⟩
      simp only [Expr.beq, Bool.and_eq_true, beq_iff_eq] at h
      simp only [Expr.FnAll] at ha hb
      obtain ⟨h1, h2⟩ := hL as bs (fun a ha => by
        have := List.sizeOf_lt_of_mem ha
        simp at hsz; omega) ha.2 hb.2 h.2
      obtain ⟨h3, h4⟩ := hP f g ha.1 hb.1 h.1
      by_cases ht : f ≠ .time ∨ as ≠ []
      · have ht' : g ≠ .time ∨ bs ≠ [] := by
          rcases ht with ht | ht
          · exact .inl fun h => ht (h4.2 h)
          · exact .inr fun h => ht (List.length_eq_zero_iff.1 (by rw [h2, h]; rfl))
        rw [Expr.eval_fn _ _ _ ht, Expr.eval_fn _ _ _ ht', h1, h3]
      · push Not at ht
        obtain ⟨rfl, rfl⟩ := ht
        obtain rfl := h4.1 rfl
        obtain rfl : bs = [] := List.length_eq_zero_iff.1 h2.symm
        rfl

end Heyoka.Sym
