import Verif.Compact.Inline
import Verif.Compact.Segment
import Verif.Props.ArgGen

/-!
# The execution of the code generated in compact mode
-/

set_option linter.unusedSectionVars false

namespace Heyoka.Sym

open EopSw (decimal)

variable {K : Type}

/-! ### Arguments -/

section
variable [Field K] [LinearOrder K]

/-- The argument of a call given by a leaf. -/
def ArgRel : Expr K → CArg K → Prop
  | .var s, .idx i => s = uname i
  | .num n, .num m => n.toK? = m.toK?
  | .par k, .idx i => k = i
  | _, _ => False

/-- The arguments of a given kind. -/
def CKind : Kind → CArg K → Prop
  | .num, .num _ => True
  | .var, .idx i => i < 2 ^ 32
  | .par, .idx i => i < 2 ^ 32
  | _, _ => False

/-- Arguments with the same values. -/
def CArgEq : CArg K → CArg K → Prop
  | .idx i, .idx j => i = j
  | .num n, .num m => n.toK? = m.toK?
  | _, _ => False

theorem ArgRel.trans {a : Expr K} {c c' : CArg K} (h : ArgRel a c) (h' : CArgEq c c') : ArgRel a c' := by
  cases a <;> cases c <;> cases c' <;> simp_all [ArgRel, CArgEq]

theorem forall₂_trans {α β γ : Type} {R : α → β → Prop} {S : β → γ → Prop} {Q : α → γ → Prop}
    (h : ∀ a b c, R a b → S b c → Q a c) : ∀ {l : List α} {m : List β} {n : List γ}, List.Forall₂ R l m →
      List.Forall₂ S m n → List.Forall₂ Q l n
  | _, _, _, .nil, h2 => by cases h2; exact .nil
  | _, _, _, .cons h1 t1, h2 => by
    cases h2 with
    | cons h3 t3 => exact .cons (h _ _ _ h1 h3) (forall₂_trans h t1 t3)

theorem argsOf_ok {i : Nat} (hi : i ≤ 2 ^ 32) (l : List (Expr K)) (ha : ∀ a ∈ l, ArgOk i a)
    (hp : ∀ k, .par k ∈ l → k < 2 ^ 32) :
    ∃ as ks, argsOf l = .ok as ∧ kindsOf l = .ok ks ∧ List.Forall₂ ArgRel l as ∧ List.Forall₂ CKind ks as := by
  induction l with
  | nil => exact ⟨[], [], rfl, rfl, .nil, .nil⟩
  | cons a l ih =>
    obtain ⟨as, ks, h1, h2, h3, h4⟩ := ih (fun x hx => ha x (List.mem_cons_of_mem _ hx))
      fun k hk => hp k (List.mem_cons_of_mem _ hk)
    have h0 := ha a List.mem_cons_self
    cases a with
    | var s =>
      obtain ⟨j, hj, rfl⟩ := h0.var_of
      refine ⟨.idx j :: as, .var :: ks, ?_, ?_, .cons rfl h3, .cons (show j < 2 ^ 32 by omega) h4⟩
      · rw [argsOf, argOf, unameToIndex_uname, if_pos (by omega)]
        simp only [Res.bind_ok]
        rw [h1]
        rfl
      · rw [kindsOf, kindOf, Res.bind_ok, h2]
        rfl
    | num n =>
      refine ⟨.num n :: as, .num :: ks, ?_, ?_, .cons rfl h3, .cons trivial h4⟩
      · rw [argsOf, argOf, h1]
        rfl
      · rw [kindsOf, kindOf, Res.bind_ok, h2]
        rfl
    | par k =>
      refine ⟨.idx k :: as, .par :: ks, ?_, ?_, .cons rfl h3, .cons (hp k List.mem_cons_self) h4⟩
      · rw [argsOf, argOf, h1]
        rfl
      · rw [kindsOf, kindOf, Res.bind_ok, h2]
        rfl
    | fn f as => exact h0.elim

/-! ### Generators -/

theorem column_ok {rows : List (List (CArg K))} {i : Nat} (h : ∀ r ∈ rows, i < r.length) :
    ∃ c, column i rows = .ok c ∧ c.length = rows.length ∧
      ∀ (j : Nat) r, rows[j]? = some r → ∃ a, r[i]? = some a ∧ c[j]? = some a := by
  induction rows with
  | nil => exact ⟨[], rfl, rfl, by simp⟩
  | cons r rs ih =>
    obtain ⟨c, h1, h2, h3⟩ := ih fun x hx => h x (List.mem_cons_of_mem _ hx)
    have hr := h r List.mem_cons_self
    refine ⟨r[i] :: c, ?_, by simp [h2], fun j x hx => ?_⟩
    · rw [column, List.getElem?_eq_getElem hr]
      simp only
      rw [h1]
      rfl
    · cases j with
      | zero =>
        simp only [List.getElem?_cons_zero, Option.some.injEq] at hx
        subst hx
        exact ⟨_, List.getElem?_eq_getElem hr, rfl⟩
      | succ j => exact h3 j x (by simpa using hx)

theorem allIdx_ok {c : List (CArg K)} (h : ∀ a ∈ c, ∃ i, a = .idx i ∧ i < 2 ^ 32) :
    ∃ l, allIdx c = some l ∧ c = l.map .idx ∧ ∀ x ∈ l, x < 2 ^ 32 := by
  induction c with
  | nil => exact ⟨[], rfl, rfl, by simp⟩
  | cons a c ih =>
    obtain ⟨l, h1, h2, h3⟩ := ih fun x hx => h x (List.mem_cons_of_mem _ hx)
    obtain ⟨i, rfl, hi⟩ := h a List.mem_cons_self
    refine ⟨i :: l, by rw [allIdx, h1]; rfl, by rw [List.map_cons, ← h2], fun x hx => ?_⟩
    rcases List.mem_cons.1 hx with rfl | hx
    · exact hi
    · exact h3 x hx

theorem allNum_ok {c : List (CArg K)} (h : ∀ a ∈ c, ∃ i, a = .num i) : ∃ l, allNum c = some l ∧ c = l.map .num := by
  induction c with
  | nil => exact ⟨[], rfl, rfl⟩
  | cons a c ih =>
    obtain ⟨l, h1, h2⟩ := ih fun x hx => h x (List.mem_cons_of_mem _ hx)
    obtain ⟨i, rfl⟩ := h a List.mem_cons_self
    exact ⟨i :: l, by rw [allNum, h1]; rfl, by rw [List.map_cons, ← h2]⟩

theorem Num.toK?_of_beq {x y : Num K} (h : x.beq y = true) : x.toK? = y.toK? := by
  obtain ⟨s, x⟩ := x
  obtain ⟨t, y⟩ := y
  simp only [Num.beq] at h
  split_ifs at h with h1 h2
  · simp only [Num.toK?]
    cases x <;> cases y <;> simp_all [FVal.isNan, FVal.toK?]
  · simp only [Num.toK?]
    cases x <;> cases y <;> simp_all [FVal.feq, FVal.toK?, FVal.isZero]

theorem toK?_of_beq {x y : Num K} (h : x = y ∨ x.beq y = true) : x.toK? = y.toK? := by
  rcases h with rfl | h
  · rfl
  · exact Num.toK?_of_beq h

theorem mkGen_ok {c : List (CArg K)} (hne : c ≠ []) (hl : c.length < 2 ^ 32) {k : Kind} (hk : ∀ a ∈ c, CKind k a) :
    ∃ g, mkGen c = .ok g ∧ ∀ (j : Nat) a, c[j]? = some a → ∃ a', g.eval j = .ok a' ∧ CArgEq a a' := by
  have hidx : (∀ a ∈ c, ∃ i, a = .idx i ∧ i < 2 ^ 32) →
      ∃ g, mkGen c = .ok g ∧ ∀ (j : Nat) a, c[j]? = some a → ∃ a', g.eval j = .ok a' ∧ CArgEq a a' := by
    intro h
    obtain ⟨l, h1, h2, h3⟩ := allIdx_ok h
    obtain ⟨g, h4, h5⟩ := arg_gen_indices l (by rintro rfl; exact hne h2) h3 (by rw [h2] at hl; simpa using hl)
    refine ⟨.idx g, ?_, fun j a ha => ?_⟩
    · cases c with
      | nil => exact absurd rfl hne
      | cons a c =>
        obtain ⟨i, rfl, -⟩ := h a List.mem_cons_self
        simp only [mkGen, h1, h4, Res.bind_ok]
    · rw [h2, List.getElem?_map] at ha
      cases hx : l[j]? with
      | none => rw [hx] at ha; cases ha
      | some x =>
        rw [hx] at ha
        simp only [Option.map_some, Option.some.injEq] at ha
        subst ha
        exact ⟨.idx x, by rw [CGen.eval, h5 j x hx]; rfl, rfl⟩
  cases k with
  | var =>
    refine hidx fun a ha => ?_
    have := hk a ha
    cases a with
    | idx i => exact ⟨i, rfl, this⟩
    | num n => exact this.elim
  | par =>
    refine hidx fun a ha => ?_
    have := hk a ha
    cases a with
    | idx i => exact ⟨i, rfl, this⟩
    | num n => exact this.elim
  | num =>
    have h : ∀ a ∈ c, ∃ i, a = .num i := by
      intro a ha
      have := hk a ha
      cases a with
      | idx i => exact this.elim
      | num n => exact ⟨n, rfl⟩
    obtain ⟨l, h1, h2⟩ := allNum_ok h
    obtain ⟨g, h4, h5⟩ := arg_gen_numbers l (by rintro rfl; exact hne h2)
    refine ⟨.num g, ?_, fun j a ha => ?_⟩
    · cases c with
      | nil => exact absurd rfl hne
      | cons a c =>
        obtain ⟨i, rfl⟩ := h a List.mem_cons_self
        simp only [mkGen, h1, h4, Res.bind_ok]
    · rw [h2, List.getElem?_map] at ha
      cases hx : l[j]? with
      | none => rw [hx] at ha; cases ha
      | some x =>
        rw [hx] at ha
        simp only [Option.map_some, Option.some.injEq] at ha
        subst ha
        obtain ⟨y, h6, h7⟩ := h5 j x hx
        exact ⟨.num y, by rw [CGen.eval, h6]; rfl, toK?_of_beq h7⟩

theorem mkGens_ok {rows : List (List (CArg K))} (hne : rows ≠ []) (hl : rows.length < 2 ^ 32) {ks : List Kind}
    (hk : ∀ r ∈ rows, List.Forall₂ CKind ks r) (n : Nat) : ∀ i, i + n = ks.length →
    ∃ gens, mkGens rows i n = .ok gens ∧ ∀ (j : Nat) r, rows[j]? = some r →
      ∃ r', evalGens j gens = .ok r' ∧ List.Forall₂ CArgEq (r.drop i) r' := by
  induction n with
  | zero =>
    intro i hi
    refine ⟨[], rfl, fun j r hr => ⟨[], rfl, ?_⟩⟩
    rw [List.drop_eq_nil_of_le (by rw [← (hk r (List.mem_of_getElem? hr)).length_eq]; omega)]
    exact .nil
  | succ n ih =>
    intro i hi
    obtain ⟨gens, h1, h2⟩ := ih (i + 1) (by omega)
    have hlen : ∀ r ∈ rows, i < r.length := fun r hr => by rw [← (hk r hr).length_eq]; omega
    obtain ⟨c, h3, h4, h5⟩ := column_ok hlen
    have hki : ∃ k, ks[i]? = some k := ⟨_, List.getElem?_eq_getElem (by omega)⟩
    obtain ⟨k, hki⟩ := hki
    obtain ⟨g, h6, h7⟩ := mkGen_ok (c := c) (k := k) (by
        intro hc
        rw [hc] at h4
        exact hne (List.length_eq_zero_iff.1 h4.symm)) (by omega) (fun a ha => by
        obtain ⟨j, hj⟩ := List.mem_iff_getElem?.1 ha
        have hjl := (List.getElem?_eq_some_iff.1 hj).1
        obtain ⟨r, hr⟩ : ∃ r, rows[j]? = some r := ⟨_, List.getElem?_eq_getElem (by omega)⟩
        obtain ⟨a', h8, h9⟩ := h5 j r hr
        rw [hj] at h9
        injection h9 with h9
        subst h9
        have h10 := List.forall₂_iff_get.1 (hk r (List.mem_of_getElem? hr))
        obtain ⟨hi1, he1⟩ := List.getElem?_eq_some_iff.1 hki
        obtain ⟨hi2, he2⟩ := List.getElem?_eq_some_iff.1 h8
        have := h10.2 i hi1 hi2
        simp only [List.get_eq_getElem] at this
        rw [he1, he2] at this
        exact this)
    refine ⟨g :: gens, by rw [mkGens, h3, Res.bind_ok, h6, Res.bind_ok, h1]; rfl, fun j r hr => ?_⟩
    obtain ⟨r', h8, h9⟩ := h2 j r hr
    obtain ⟨a, h10, h11⟩ := h5 j r hr
    obtain ⟨a', h12, h13⟩ := h7 j a h11
    refine ⟨a' :: r', by rw [evalGens, h12, Res.bind_ok, h8]; rfl, ?_⟩
    obtain ⟨hi2, he2⟩ := List.getElem?_eq_some_iff.1 h10
    rw [List.drop_eq_getElem_cons hi2, he2]
    exact .cons h13 h9

end

section
variable [Field K] [LinearOrder K] [FloorRing K] [Interp K] [CodeInterp K] [FmtName K]
variable {P : Fn K → Prop} {T : Prop}

/-! ### Names -/

theorem decimal_noDot (n : Nat) : '.' ∉ decimal n := fun h => by
  have := decimal_isDigit n '.' h
  revert this
  decide

mutual
theorem encTree_noDot (hP : LlvmSound P) : (e : Expr K) → e.TreeOk P T → ∀ k, '.' ∉ (encTree e k).1
  | .fn f args, h, k => by
    rw [treeOk_fn] at h
    have h1 := encArgs_noDot hP args h.2 k
    have h2 : '.' ∉ f.llvmName := fun hc => ((hP.chars f h.1.1).chars '.' hc).2.2.2 rfl
    rw [encTree]
    simp [h1, h2]
  | .num n, _, k => by rw [encTree]; simp [decimal_noDot]
  | .var n, _, k => by rw [encTree]; simp [decimal_noDot]
  | .par n, _, k => by rw [encTree]; simp [decimal_noDot]
theorem encArgs_noDot (hP : LlvmSound P) : (l : List (Expr K)) → (∀ a ∈ l, a.TreeOk P T) → ∀ k, '.' ∉ (encArgs l k).1
  | [], _, k => by rw [encArgs]; simp
  | a :: l, h, k => by
    have h1 := encTree_noDot hP a (h a List.mem_cons_self) k
    have h2 := encRest_noDot hP l (fun x hx => h x (List.mem_cons_of_mem _ hx)) (encTree a k).2
    rw [encArgs]
    simp [h1, h2]
theorem encRest_noDot (hP : LlvmSound P) : (l : List (Expr K)) → (∀ a ∈ l, a.TreeOk P T) → ∀ k, '.' ∉ (encRest l k).1
  | [], _, k => by rw [encRest]; simp
  | a :: l, h, k => by
    have h1 := encTree_noDot hP a (h a List.mem_cons_self) k
    have h2 := encRest_noDot hP l (fun x hx => h x (List.mem_cons_of_mem _ hx)) (encTree a k).2
    rw [encRest]
    simp [h1, h2]
end

theorem mangled_total (hP : LlvmSound P) {e : Expr K} (hf : e.isFn = true) (h : e.TreeOk P T) {ks : List Kind}
    (hk : kindsOf e.leaves = .ok ks) : ∃ nm, mangled e = .ok nm := by
  cases e with
  | fn f args =>
    have h' := h
    rw [treeOk_fn] at h'
    have h2 : '.' ∉ f.llvmName := fun hc => ((hP.chars f h'.1.1).chars '.' hc).2.2.2 rfl
    obtain ⟨nm, h3, h4⟩ : ∃ nm, elemName (.fn f args) = .ok nm ∧ '.' ∉ nm := by
      rw [elemName]
      split_ifs
      · refine ⟨_, rfl, ?_⟩
        have := encTree_noDot hP _ h 0
        simp [this]
      · exact ⟨_, rfl, h2⟩
    rw [mangled, h3, Res.bind_ok, if_neg, hk]
    · exact ⟨_, rfl⟩
    · intro hc
      obtain ⟨c, hc, hd⟩ := List.any_eq_true.1 hc
      simp only [decide_eq_true_eq] at hd
      exact h4 (hd ▸ hc)
  | _ => simp [Expr.isFn] at hf

/-! ### A call -/

theorem loadLeaf_kind {b stride : Nat} {parp : Ptr K} {tape : Tape K} {e e' : Expr K} {k : Kind}
    (h : kindOf e = .ok k) (h' : kindOf e' = .ok k) (a : CArg K) :
    loadLeaf b stride parp tape e a = loadLeaf b stride parp tape e' a := by
  cases e <;> cases e' <;> simp only [kindOf, Res.ok.injEq] at h h' <;> first
    | (subst h; cases h'; done)
    | (cases h; done)
    | (cases h'; done)
    | (cases a <;> rfl)

theorem kindsOf_cons {e : Expr K} {es : List (Expr K)} {ks : List Kind} (h : kindsOf (e :: es) = .ok ks) :
    ∃ k ks', ks = k :: ks' ∧ kindOf e = .ok k ∧ kindsOf es = .ok ks' := by
  rw [kindsOf] at h
  cases h1 : kindOf e with
  | throw => rw [h1] at h; cases h
  | ub => rw [h1] at h; cases h
  | ok k =>
    rw [h1, Res.bind_ok] at h
    cases h2 : kindsOf es with
    | throw => rw [h2] at h; cases h
    | ub => rw [h2] at h; cases h
    | ok ks' =>
      rw [h2] at h
      injection h with h
      exact ⟨k, ks', h.symm, rfl, rfl⟩

theorem loadLeaves_kind {b stride : Nat} {parp : Ptr K} {tape : Tape K} : ∀ {l l' : List (Expr K)} {ks : List Kind},
    kindsOf l = .ok ks → kindsOf l' = .ok ks → ∀ as,
    loadLeaves b stride parp tape l as = loadLeaves b stride parp tape l' as
  | [], [], _, _, _, as => rfl
  | [], e' :: l', ks, h, h', as => by
    obtain ⟨k, ks', rfl, -⟩ := kindsOf_cons h'
    cases h
  | e :: l, [], ks, h, h', as => by
    obtain ⟨k, ks', rfl, -⟩ := kindsOf_cons h
    cases h'
  | e :: l, e' :: l', ks, h, h', as => by
    obtain ⟨k, ks', rfl, h1, h2⟩ := kindsOf_cons h
    obtain ⟨k', ks'', h3, h4, h5⟩ := kindsOf_cons h'
    injection h3 with h3 h6
    subst h3 h6
    cases as with
    | nil => rfl
    | cons a as =>
      simp only [loadLeaves]
      rw [loadLeaf_kind h1 h4 a, loadLeaves_kind h2 h5 as]

variable {b stride : Nat} {parp timep : Ptr K} {vs : Nat → Env K} {R : Nat → Prop} {val : Nat → String → Option K}

/-- The vector of the values of a `u` variable. -/
def uvec (b : Nat) (val : Nat → String → Option K) (i : Nat) : List (Option K) := (List.range b).map fun l => val l (uname i)

/-- The tape contains the values of the variable `i`. -/
def Has (b : Nat) (val : Nat → String → Option K) (tape : Tape K) (i : Nat) : Prop := tape[i]? = some (some (uvec b val i))

theorem uvec_isVec (i : Nat) : IsVec b (uvec b val i) fun l => val l (uname i) := by
  refine ⟨by simp [uvec], fun l hl => ?_⟩
  rw [uvec, List.getElem?_map, List.getElem?_range hl]
  rfl

theorem loadLeaves_ok (hp : ParsOk b stride parp vs R) {start : Nat} {tape : Tape K}
    (ht : ∀ j, j < start → Has b val tape j) : ∀ {l : List (Expr K)} {as : List (CArg K)},
    (∀ a ∈ l, ArgOk start a) → (∀ k, .par k ∈ l → R k) → List.Forall₂ ArgRel l as →
    ∃ xs, loadLeaves b stride parp tape l as = .ok xs ∧
      List.Forall₂ (fun a x => IsVec b x fun l => argV (vs l) (val l) a) l xs
  | [], _, _, _, .nil => ⟨[], rfl, .nil⟩
  | a :: l, _ :: as, ha, hpar, .cons (b := c) h1 h2 => by
    obtain ⟨xs, h3, h4⟩ := loadLeaves_ok hp ht (fun x hx => ha x (List.mem_cons_of_mem _ hx))
      (fun k hk => hpar k (List.mem_cons_of_mem _ hk)) h2
    have h0 := ha a List.mem_cons_self
    obtain ⟨x, h5, h6⟩ : ∃ x, loadLeaf b stride parp tape a c = .ok x ∧ IsVec b x fun l => argV (vs l) (val l) a := by
      cases a with
      | var s =>
        cases c with
        | num n => exact h1.elim
        | idx i =>
          have h1' : s = uname i := h1
          subst h1'
          obtain ⟨j, hj, hij⟩ := h0.var_of
          rw [uname_inj hij] at *
          refine ⟨uvec b val j, ?_, uvec_isVec j⟩
          have := ht j hj
          unfold Has at this
          simp only [loadLeaf, tapeGet]
          rw [this]
      | num n =>
        cases c with
        | idx i => exact h1.elim
        | num m =>
          have h1' : n.toK? = m.toK? := h1
          refine ⟨_, rfl, ?_⟩
          rw [← h1']
          exact isVec_replicate _
      | par k =>
        cases c with
        | num n => exact h1.elim
        | idx i =>
          have h1' : k = i := h1
          subst h1'
          exact loadVec_ok b (stride * k) (fun l => (vs l).par k) (hp k (hpar k List.mem_cons_self))
      | fn f as => exact h0.elim
    exact ⟨x :: xs, by rw [loadLeaves, h5, Res.bind_ok, h3]; rfl, .cons h6 h4⟩

/-- The element `e` with index `u` of a segment starting at `start`. -/
structure ElemOk (P : Fn K → Prop) (T : Prop) (R : Nat → Prop) (b : Nat) (vs : Nat → Env K)
    (val : Nat → String → Option K) (start u : Nat) (e : Expr K) : Prop where
  fn : e.isFn = true
  tree : e.TreeOk P T
  leaf : ∀ a ∈ e.leaves, ArgOk start a
  pars : ∀ k, .par k ∈ e.leaves → R k
  value : ∀ l, l < b → treeVal (vs l) (argV (vs l) (val l)) e = val l (uname u)

/-- The arguments of the call for the element `e` with index `u`. -/
def RowFor (u : Nat) (e : Expr K) (row : List (CArg K)) : Prop :=
  ∃ as ks, row = .idx u :: as ∧ List.Forall₂ ArgRel e.leaves as ∧ kindsOf e.leaves = .ok ks ∧ List.Forall₂ CKind ks as

theorem runCall_ok (hP : LlvmSound P) (hcode : CodeSound P) (hp : ParsOk b stride parp vs R)
    (htm : TimeOk b timep vs T) {start u : Nat} {e body : Expr K} {row row' : List (CArg K)} {tape : Tape K}
    {nm : List Char} (he : ElemOk P T R b vs val start u e) (hrow : RowFor u e row)
    (hrow' : List.Forall₂ CArgEq row row') (hb : body.TreeOk P T) (hm : mangled e = .ok nm) (hm' : mangled body = .ok nm)
    (ht : ∀ j, j < start → Has b val tape j) (hu : u < tape.length) :
    runCall b stride parp timep body tape row' = .ok (tape.set u (some (uvec b val u))) := by
  obtain ⟨as, ks, rfl, h1, h2, h3⟩ := hrow
  cases hrow' with
  | @cons _ c _ as' h4 h5 =>
    cases c with
    | num n => exact h4.elim
    | idx u' =>
      have h4' : u = u' := h4
      subst h4'
      obtain ⟨hs, hk⟩ := mangled_inj (TreeOk.compositeOk hP he.tree) (TreeOk.compositeOk hP hb) hm hm'
      have h6 : List.Forall₂ ArgRel e.leaves as' := forall₂_trans (fun _ _ _ h h' => h.trans h') h1 h5
      obtain ⟨xs, h7, h8⟩ := loadLeaves_ok hp ht he.leaf he.pars h6
      have h9 : loadLeaves b stride parp tape body.leaves as' = .ok xs := by
        rw [loadLeaves_kind (hk ▸ h2) h2, h7]
      obtain ⟨w, h10, h11⟩ := treeCode_ok (L := fun l => argV (vs l) (val l)) hcode htm (fun _ _ _ => rfl) e he.tree xs []
        (by simpa using h8)
      rw [List.append_nil, treeCode_congr hP e body he.tree hb hs] at h10
      have hw : w = uvec b val u := by
        rw [h11.eq_map, uvec]
        refine List.map_congr_left fun l hl => he.value l (List.mem_range.1 hl)
      simp only [runCall]
      rw [h9, Res.bind_ok, h10, Res.bind_ok, tapeSet, if_pos hu, hw]

theorem Has.set {tape : Tape K} {u : Nat} (hu : u < tape.length) {j : Nat} (h : Has b val tape j ∨ j = u) :
    Has b val (tape.set u (some (uvec b val u))) j := by
  unfold Has
  by_cases hj : j = u
  · rw [hj, List.getElem?_set_self hu]
  · rw [List.getElem?_set_ne (Ne.symm hj)]
    exact h.resolve_right hj

/-! ### The groups of calls -/

/-- The invariant of an entry of `tmp_map`; `E` are the elements of the segment. -/
structure GroupOk (P : Fn K → Prop) (T : Prop) (E : Nat → Expr K → Prop) (g : Group K) : Prop where
  tree : g.body.TreeOk P T
  name : mangled g.body = .ok g.name
  ne : g.rows ≠ []
  rows : ∀ row ∈ g.rows, ∃ u e, u < 2 ^ 32 ∧ E u e ∧ e.TreeOk P T ∧ mangled e = .ok g.name ∧ RowFor u e row

theorem RowFor.length {P : Fn K → Prop} {T : Prop} (hP : LlvmSound P) {u u' : Nat} {e e' : Expr K} {row row' : List (CArg K)}
    {nm : List Char} (h : RowFor u e row) (h' : RowFor u' e' row') (ht : e.TreeOk P T) (ht' : e'.TreeOk P T)
    (hm : mangled e = .ok nm) (hm' : mangled e' = .ok nm) : row.length = row'.length := by
  obtain ⟨as, ks, rfl, h1, h2, h3⟩ := h
  obtain ⟨as', ks', rfl, h1', h2', h3'⟩ := h'
  obtain ⟨-, hk⟩ := mangled_inj (TreeOk.compositeOk hP ht) (TreeOk.compositeOk hP ht') hm hm'
  rw [h2, h2'] at hk
  injection hk with hk
  subst hk
  rw [List.length_cons, List.length_cons, ← h3.length_eq, ← h3'.length_eq]

/-- All the calls. -/
def rowsOf (gs : List (Group K)) : List (List (CArg K)) := gs.flatMap Group.rows

theorem insertRow_ok (hP : LlvmSound P) {E : Nat → Expr K → Prop} {u : Nat} {e body : Expr K} {row : List (CArg K)}
    {nm : List Char} (hu : u < 2 ^ 32) (he : E u e) (ht : e.TreeOk P T) (hm : mangled e = .ok nm) (hrow : RowFor u e row)
    (hb : body.TreeOk P T) (hmb : mangled body = .ok nm) : ∀ (gs : List (Group K)), (∀ g ∈ gs, GroupOk P T E g) →
    ∃ gs', insertRow nm body row gs = .ok gs' ∧ (∀ g ∈ gs', GroupOk P T E g) ∧ (rowsOf gs').Perm (row :: rowsOf gs)
  | [], _ => by
    refine ⟨[⟨nm, body, [row]⟩], rfl, fun g hg => ?_, by simp [rowsOf]⟩
    rw [List.mem_singleton] at hg
    subst hg
    exact ⟨hb, hmb, by simp, fun r hr => ⟨u, e, hu, he, ht, hm, by
      rw [List.mem_singleton] at hr; subst hr; exact hrow⟩⟩
  | g :: gs, hg => by
    have hnew : GroupOk P T E ⟨nm, body, [row]⟩ := ⟨hb, hmb, by simp, fun r hr => ⟨u, e, hu, he, ht, hm, by
      rw [List.mem_singleton] at hr; subst hr; exact hrow⟩⟩
    have hg0 := hg g List.mem_cons_self
    have hgs : ∀ g' ∈ gs, GroupOk P T E g' := fun g' h' => hg g' (List.mem_cons_of_mem _ h')
    simp only [insertRow]
    split_ifs with h1 h2
    · subst h1
      obtain ⟨r, hr⟩ : ∃ r, g.rows.getLast? = some r := by
        cases h : g.rows.getLast? with
        | none => exact absurd (List.getLast?_eq_none_iff.1 h) hg0.ne
        | some r => exact ⟨r, rfl⟩
      obtain ⟨u', e', -, -, ht', hm', hrow'⟩ := hg0.rows r (List.mem_of_getLast? hr)
      have hlen := RowFor.length hP hrow' hrow ht' ht hm' hm
      refine ⟨⟨g.name, g.body, g.rows ++ [row]⟩ :: gs, ?_, fun g' h' => ?_, ?_⟩
      · rw [hr]
        simp only [hlen, ne_eq, not_true, if_false]
      · rcases List.mem_cons.1 h' with rfl | h'
        · refine ⟨hg0.tree, hg0.name, by simp, fun r' hr' => ?_⟩
          rcases List.mem_append.1 hr' with hr' | hr'
          · exact hg0.rows r' hr'
          · rw [List.mem_singleton] at hr'
            subst hr'
            exact ⟨u, e, hu, he, ht, hm, hrow⟩
        · exact hgs g' h'
      · simp only [rowsOf, List.flatMap_cons, List.append_assoc, List.singleton_append]
        exact List.perm_middle
    · refine ⟨_, rfl, fun g' h' => ?_, by simp [rowsOf]⟩
      rcases List.mem_cons.1 h' with rfl | h'
      · exact hnew
      · exact hg g' h'
    · obtain ⟨gs', h3, h4, h5⟩ := insertRow_ok hP hu he ht hm hrow hb hmb gs hgs
      refine ⟨g :: gs', by rw [h3]; rfl, fun g' h' => ?_, ?_⟩
      · rcases List.mem_cons.1 h' with rfl | h'
        · exact hg0
        · exact h4 g' h'
      · simp only [rowsOf, List.flatMap_cons] at h5 ⊢
        exact (List.Perm.append_left _ h5).trans List.perm_middle

/-- The functions in the module have the names derived from their bodies. -/
def TblOk (P : Fn K → Prop) (T : Prop) (tbl : List (List Char × Expr K)) : Prop :=
  ∀ p ∈ tbl, p.2.TreeOk P T ∧ mangled p.2 = .ok p.1

theorem mem_of_lookup {α β : Type} [BEq α] [LawfulBEq α] {a : α} {c : β} : ∀ {l : List (α × β)}, l.lookup a = some c → (a, c) ∈ l
  | [], h => by cases h
  | (x, y) :: l, h => by
    rw [List.lookup_cons] at h
    by_cases hx : a = x
    · subst hx
      simp at h
      subst h
      exact List.mem_cons_self
    · have : (a == x) = false := by simpa using hx
      rw [this] at h
      exact List.mem_cons_of_mem _ (mem_of_lookup h)

theorem getBody_ok {tbl : List (List Char × Expr K)} (h : TblOk P T tbl) {nm : List Char} {e : Expr K}
    (ht : e.TreeOk P T) (hm : mangled e = .ok nm) :
    (getBody tbl nm e).1.TreeOk P T ∧ mangled (getBody tbl nm e).1 = .ok nm ∧ TblOk P T (getBody tbl nm e).2 := by
  unfold getBody
  split
  · rename_i body hl
    have := h _ (mem_of_lookup hl)
    exact ⟨this.1, this.2, h⟩
  · refine ⟨ht, hm, fun p hp => ?_⟩
    rcases List.mem_cons.1 hp with rfl | hp
    · exact ⟨ht, hm⟩
    · exact h p hp

theorem segGroups_ok (hP : LlvmSound P) {E : Nat → Expr K → Prop} (hR : ∀ k, R k → k < 2 ^ 32)
    (hE : ∀ u e, E u e → u < 2 ^ 32 ∧ e.isFn = true ∧ e.TreeOk P T ∧ (∀ a ∈ e.leaves, ArgOk (2 ^ 32) a) ∧
      ∀ k, .par k ∈ e.leaves → R k) (es : List (Expr K)) :
    ∀ (tbl : List (List Char × Expr K)) (u : Nat) (gs : List (Group K)), TblOk P T tbl → (∀ g ∈ gs, GroupOk P T E g) →
    (∀ (k : Nat) (e : Expr K), es[k]? = some e → E (u + k) e) →
    ∃ tbl' gs', segGroups tbl u gs es = .ok (tbl', gs') ∧ TblOk P T tbl' ∧ (∀ g ∈ gs', GroupOk P T E g) ∧
      (rowsOf gs').length = (rowsOf gs).length + es.length ∧ (∀ r ∈ rowsOf gs, r ∈ rowsOf gs') ∧
      ∀ (k : Nat), k < es.length → ∃ as, .idx (u + k) :: as ∈ rowsOf gs' := by
  induction es with
  | nil =>
    intro tbl u gs ht hg _
    exact ⟨tbl, gs, rfl, ht, hg, rfl, fun _ h => h, by simp⟩
  | cons e es ih =>
    intro tbl u gs ht hg hes
    have h0 := hes 0 e rfl
    rw [Nat.add_zero] at h0
    obtain ⟨h1, h2, h3, h4, h5⟩ := hE u e h0
    obtain ⟨as, ks, h6, h7, h8, h9⟩ := argsOf_ok (Nat.le_refl _) e.leaves h4 fun k hk => hR k (h5 k hk)
    obtain ⟨nm, h10⟩ := mangled_total hP h2 h3 h7
    obtain ⟨h11, h12, h13⟩ := getBody_ok ht h3 h10
    obtain ⟨gs', h14, h15, h16⟩ := insertRow_ok hP h1 h0 h3 h10 (row := .idx u :: as) ⟨as, ks, rfl, h8, h7, h9⟩ h11 h12 gs hg
    obtain ⟨tbl', gs'', h17, h18, h19, h20, h21, h22⟩ := ih (getBody tbl nm e).2 (u + 1) gs' h13 h15 fun k e' hk => by
      have := hes (k + 1) e' (by simpa using hk)
      rwa [show u + 1 + k = u + (k + 1) by omega]
    refine ⟨tbl', gs'', ?_, h18, h19, ?_, fun r hr => h21 r (h16.mem_iff.2 (List.mem_cons_of_mem _ hr)), fun k hk => ?_⟩
    · rw [segGroups, h10, Res.bind_ok, h6, Res.bind_ok, h14, Res.bind_ok, h17]
    · rw [h20, h16.length_eq, List.length_cons, List.length_cons]; omega
    · cases k with
      | zero => exact ⟨as, h21 _ (h16.mem_iff.2 List.mem_cons_self)⟩
      | succ k =>
        obtain ⟨as', h⟩ := h22 k (by simpa using hk)
        exact ⟨as', by rw [show u + (k + 1) = u + 1 + k by omega]; exact h⟩

/-! ### The execution of a segment -/

/-- What the execution of a block of calls does. -/
structure BlockOk (P : Fn K → Prop) (T : Prop) (E : Nat → Expr K → Prop) (g : Group K) (bl : Block K) : Prop where
  body : bl.body = g.body
  ncalls : bl.ncalls = g.rows.length
  gens : ∀ (j : Nat) row, g.rows[j]? = some row → ∃ row', evalGens j bl.gens = .ok row' ∧ List.Forall₂ CArgEq row row'

theorem mkBlock_ok (hP : LlvmSound P) {E : Nat → Expr K → Prop} {g : Group K} (hg : GroupOk P T E g)
    (hl : g.rows.length < 2 ^ 32) : ∃ bl, mkBlock g = .ok bl ∧ BlockOk P T E g bl := by
  cases hr : g.rows with
  | nil => exact absurd hr hg.ne
  | cons r rs =>
    obtain ⟨u0, e0, hu0, -, ht0, hm0, as0, ks0, h1, h2, h3, h4⟩ := hg.rows r (by rw [hr]; exact List.mem_cons_self)
    have hk : ∀ row ∈ g.rows, List.Forall₂ CKind (.var :: ks0) row := by
      intro row hrow
      obtain ⟨u, e, hu, -, ht, hm, as, ks, h1', h2', h3', h4'⟩ := hg.rows row hrow
      obtain ⟨-, hk⟩ := mangled_inj (TreeOk.compositeOk hP ht0) (TreeOk.compositeOk hP ht) hm0 hm
      rw [h3, h3'] at hk
      injection hk with hk
      subst hk
      rw [h1']
      exact .cons hu h4'
    obtain ⟨gens, h5, h6⟩ := mkGens_ok hg.ne hl hk (ks0.length + 1) 0 (by simp)
    have hrl : r.length = ks0.length + 1 := by rw [h1, List.length_cons, h4.length_eq]
    refine ⟨⟨g.body, gens, g.rows.length⟩, ?_, rfl, rfl, fun j row hj => ?_⟩
    · unfold mkBlock
      rw [hr] at h5 hl ⊢
      simp only
      rw [if_neg (by omega), hrl, h5]
      rfl
    · obtain ⟨r', h7, h8⟩ := h6 j row hj
      exact ⟨r', h7, by simpa using h8⟩

theorem runBlock_ok (hP : LlvmSound P) (hcode : CodeSound P) (hp : ParsOk b stride parp vs R)
    (htm : TimeOk b timep vs T) {start n : Nat} {E : Nat → Expr K → Prop}
    (hE : ∀ u e, E u e → u < n ∧ ElemOk P T R b vs val start u e) {g : Group K} (hg : GroupOk P T E g) {bl : Block K}
    (hbl : BlockOk P T E g bl) (k : Nat) : ∀ (j : Nat) (tape : Tape K), j + k = g.rows.length → tape.length = n →
    (∀ i, i < start → Has b val tape i) →
    ∃ tape', runBlock b stride parp timep bl j k tape = .ok tape' ∧ tape'.length = n ∧
      (∀ i, Has b val tape i → Has b val tape' i) ∧
      ∀ (q : Nat) (u : Nat) as, j ≤ q → g.rows[q]? = some (.idx u :: as) → Has b val tape' u := by
  induction k with
  | zero =>
    intro j tape hj hn _
    refine ⟨tape, rfl, hn, fun _ h => h, fun q u as hq h => ?_⟩
    rw [List.getElem?_eq_none (by omega)] at h
    cases h
  | succ k ih =>
    intro j tape hj hn ht
    obtain ⟨row, hrow⟩ : ∃ r, g.rows[j]? = some r := ⟨_, List.getElem?_eq_getElem (by omega)⟩
    obtain ⟨row', h1, h2⟩ := hbl.gens j row hrow
    obtain ⟨u, e, hu, he, hte, hm, hrf⟩ := hg.rows row (List.mem_of_getElem? hrow)
    obtain ⟨hun, helem⟩ := hE u e he
    have h3 := runCall_ok hP hcode hp htm helem hrf h2 hg.tree hm hg.name ht (by omega)
    have hul : u < tape.length := by omega
    obtain ⟨tape', h4, h5, h6, h7⟩ := ih (j + 1) (tape.set u (some (uvec b val u))) (by omega) (by simpa using hn)
      fun i hi => Has.set hul (.inl (ht i hi))
    refine ⟨tape', ?_, h5, fun i hi => h6 i (Has.set hul (.inl hi)), fun q u' as hq hr => ?_⟩
    · rw [runBlock, h1, Res.bind_ok, hbl.body, h3, Res.bind_ok, h4]
    · rcases Nat.eq_or_lt_of_le hq with rfl | hq
      · rw [hrow] at hr
        obtain ⟨as', ks', h8, -⟩ := hrf
        rw [h8] at hr
        simp only [Option.some.injEq, List.cons.injEq, CArg.idx.injEq] at hr
        rw [← hr.1]
        exact h6 u (Has.set hul (.inr rfl))
      · exact h7 q u' as hq hr

theorem runBlocks_ok (hP : LlvmSound P) (hcode : CodeSound P) (hp : ParsOk b stride parp vs R)
    (htm : TimeOk b timep vs T) {start n : Nat} {E : Nat → Expr K → Prop}
    (hE : ∀ u e, E u e → u < n ∧ ElemOk P T R b vs val start u e) : ∀ (gs : List (Group K)),
    (∀ g ∈ gs, GroupOk P T E g) → ∀ (bls : List (Block K)), List.Forall₂ (BlockOk P T E) gs bls →
    ∀ (tape : Tape K), tape.length = n → (∀ i, i < start → Has b val tape i) →
    ∃ tape', runBlocks b stride parp timep bls tape = .ok tape' ∧ tape'.length = n ∧
      (∀ i, Has b val tape i → Has b val tape' i) ∧ ∀ (u : Nat) as, .idx u :: as ∈ rowsOf gs → Has b val tape' u
  | [], _, _, .nil, tape, hn, ht => ⟨tape, rfl, hn, fun _ h => h, by simp [rowsOf]⟩
  | g :: gs, hg, bl :: bls, .cons h1 h2, tape, hn, ht => by
    obtain ⟨tape1, h3, h4, h5, h6⟩ := runBlock_ok hP hcode hp htm hE (hg g List.mem_cons_self) h1 g.rows.length 0 tape
      (by omega) hn ht
    obtain ⟨tape2, h7, h8, h9, h10⟩ := runBlocks_ok hP hcode hp htm hE gs (fun x hx => hg x (List.mem_cons_of_mem _ hx)) bls h2
      tape1 h4 fun i hi => h5 i (ht i hi)
    refine ⟨tape2, ?_, h8, fun i hi => h9 i (h5 i hi), fun u as hu => ?_⟩
    · rw [runBlocks, h1.ncalls, h3, Res.bind_ok, h7]
    · rw [rowsOf, List.flatMap_cons, List.mem_append] at hu
      rcases hu with hu | hu
      · obtain ⟨q, hq⟩ := List.mem_iff_getElem?.1 hu
        exact h9 u (h6 q u as (Nat.zero_le _) hq)
      · exact h10 u as hu

theorem mkBlocks_ok (hP : LlvmSound P) {E : Nat → Expr K → Prop} : ∀ (gs : List (Group K)),
    (∀ g ∈ gs, GroupOk P T E g) → (rowsOf gs).length < 2 ^ 32 →
    ∃ bls, mkBlocks gs = .ok bls ∧ List.Forall₂ (BlockOk P T E) gs bls
  | [], _, _ => ⟨[], rfl, .nil⟩
  | g :: gs, hg, hl => by
    rw [rowsOf, List.flatMap_cons, List.length_append] at hl
    obtain ⟨bl, h1, h2⟩ := mkBlock_ok hP (hg g List.mem_cons_self) (by omega)
    obtain ⟨bls, h3, h4⟩ := mkBlocks_ok hP gs (fun x hx => hg x (List.mem_cons_of_mem _ hx)) (by rw [rowsOf]; omega)
    exact ⟨bl :: bls, by rw [mkBlocks, h1, Res.bind_ok, h3]; rfl, .cons h2 h4⟩

/-! ### The whole program -/

/-- The facts about the segments: the elements, given by their indices, read only what was computed by the
previous segments. -/
def SegElems (Q : Nat → Nat → Expr K → Prop) : Nat → List (List (Expr K)) → Prop
  | _, [] => True
  | start, seg :: segs => (∀ (k : Nat) (e : Expr K), seg[k]? = some e → Q start (start + k) e) ∧
    SegElems Q (start + seg.length) segs

/-- The generation of the code succeeds; the code fills the tape with the values of the variables. -/
theorem compileSegs_ok (hP : LlvmSound P) (hR : ∀ k, R k → k < 2 ^ 32) {n : Nat} (hn : n < 2 ^ 32) :
    ∀ (segs : List (List (Expr K))) (tbl : List (List Char × Expr K)) (m start : Nat), TblOk P T tbl →
    start + segs.flatten.length ≤ n →
    SegElems (fun s _ e => e.isFn = true ∧ e.TreeOk P T ∧ (∀ a ∈ e.leaves, ArgOk s a) ∧ ∀ k, .par k ∈ e.leaves → R k) start segs →
    ∃ bs, compileSegs tbl m start segs = .ok bs ∧
      ∀ (b stride : Nat) (parp timep : Ptr K) (vs : Nat → Env K) (val : Nat → String → Option K), CodeSound P →
        ParsOk b stride parp vs R → TimeOk b timep vs T →
        SegElems (fun _ u e => ∀ l, l < b → treeVal (vs l) (argV (vs l) (val l)) e = val l (uname u)) start segs →
        ∀ tape : Tape K, tape.length = n → (∀ i, i < start → Has b val tape i) →
        ∃ tape', runSegs b stride parp timep bs tape = .ok tape' ∧ tape'.length = n ∧
          ∀ i, i < start + segs.flatten.length → Has b val tape' i
  | [], tbl, m, start, _, _, _ => by
    refine ⟨[], rfl, fun b stride parp timep vs val _ _ _ _ tape ht hh => ⟨tape, rfl, ht, ?_⟩⟩
    simpa using hh
  | seg :: segs, tbl, m, start, htbl, hlen, hse => by
    rw [List.flatten_cons, List.length_append] at hlen
    obtain ⟨hs1, hs2⟩ := hse
    let E : Nat → Expr K → Prop := fun u e => start ≤ u ∧ seg[u - start]? = some e
    have htbl' : TblOk P T (if m > 100 then [] else tbl) := by
      split_ifs
      · intro p hp; cases hp
      · exact htbl
    have hE : ∀ u e, E u e → u < n ∧ e.isFn = true ∧ e.TreeOk P T ∧ (∀ a ∈ e.leaves, ArgOk start a) ∧
        ∀ k, .par k ∈ e.leaves → R k := by
      rintro u e ⟨h1, h2⟩
      have h3 := (List.getElem?_eq_some_iff.1 h2).1
      exact ⟨by omega, hs1 _ e h2⟩
    obtain ⟨tbl', gs, g1, g2, g3, g4, g5, g6⟩ := segGroups_ok (R := R) hP (E := E) hR (fun u e h => by
        obtain ⟨h1, h2, h3, h4, h5⟩ := hE u e h
        exact ⟨by omega, h2, h3, fun a ha => (h4 a ha).mono (by omega), h5⟩) seg _ start [] htbl' (by simp)
        (fun k e hk => ⟨by omega, by rw [Nat.add_sub_cancel_left]; exact hk⟩)
    obtain ⟨bls, b1, b2⟩ := mkBlocks_ok hP gs g3 (by rw [g4]; simp [rowsOf]; omega)
    obtain ⟨bs, c1, c2⟩ := compileSegs_ok hP hR hn segs tbl' ((if m > 100 then 0 else m) + (bls.map Block.ncalls).sum)
      (start + seg.length) g2 (by omega) hs2
    refine ⟨bls :: bs, by rw [compileSegs, g1, Res.bind_ok, b1, Res.bind_ok, c1]; rfl, ?_⟩
    intro b stride parp timep vs val hcode hp ht hval tape htl hh
    obtain ⟨hv1, hv2⟩ := hval
    obtain ⟨tape1, r1, r2, r3, r4⟩ := runBlocks_ok (val := val) hP hcode hp ht (start := start) (n := n) (E := E) (fun u e h => by
        obtain ⟨h1, h2, h3, h4, h5⟩ := hE u e h
        obtain ⟨h6, h7⟩ := h
        refine ⟨h1, h2, h3, h4, h5, ?_⟩
        have := hv1 _ e h7
        rwa [show start + (u - start) = u by omega] at this) gs g3 bls b2 tape htl hh
    obtain ⟨tape2, r5, r6, r7⟩ := c2 b stride parp timep vs val hcode hp ht hv2 tape1 r2 (fun i hi => by
      rcases Nat.lt_or_ge i start with h | h
      · exact r3 i (hh i h)
      · obtain ⟨as, has⟩ := g6 (i - start) (by omega)
        rw [show start + (i - start) = i by omega] at has
        exact r4 i as has)
    refine ⟨tape2, by rw [runSegs, r1, Res.bind_ok, r5], r6, fun i hi => r7 i ?_⟩
    rw [List.flatten_cons, List.length_append] at hi
    omega

end

end Heyoka.Sym
