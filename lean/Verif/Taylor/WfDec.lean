import Verif.Taylor.Wf
import Verif.Taylor.DecSize
import Verif.Decomp.Machine
import Verif.Props.Decompose
import Mathlib.Tactic.NormNum

/-!
# The construction of a Taylor decomposition gives a well-formed one
-/

set_option linter.unusedSectionVars false

namespace Heyoka.Taylor

open Heyoka.Sym

variable {K : Type} [Field K] [LinearOrder K] [IsStrictOrderedRing K] [FloorRing K] [Interp K] [FmtName K]
variable {i n neq : ℕ} {L : Fn K → Prop}

/-- The functions of the expressions that can be decomposed: the first argument of `kepE` and the first two of `kepF` are
not the number one. -/
def InShape (L : Fn K → Prop) (f : Fn K) (as : List (Expr K)) : Prop :=
  TShape L f as ∧ match f with
    | .kepE => ∀ m, as[0]? = some (.num m) → m.isOne = false
    | .kepF => ∀ m, (as[0]? = some (.num m) ∨ as[1]? = some (.num m)) → m.isOne = false
    | _ => True

theorem SElemOk.mono {m : ℕ} {e : TElem K} (h : SElemOk L n i e) (hm : n ≤ m) : SElemOk L m i e :=
  ⟨fun d hd => (h.deps d hd).trans_le hm, h.ok⟩

theorem targ_le {a : Expr K} (h : LeafArg i a) (hn : i ≤ n) : LeafArg n a := by
  cases a with
  | var s =>
    obtain ⟨j, hj, rfl⟩ := h
    exact ⟨j, by omega, rfl⟩
  | fn f as => exact absurd h.ok (by simp [ArgOk])
  | par k => exact h
  | num m => trivial

theorem targ_uvarK {j : ℕ} (h : j < i) : LeafArg i (uvar j : Expr K) := ⟨j, h, rfl⟩

theorem SElemOk.fn {f : Fn K} {es : List (Expr K)} {ds : List ℕ} (ha : ∀ a ∈ es, LeafArg i a) (hs : TShape L f es)
    (hl : ds.length = depCount f) (hd : ∀ d ∈ ds, d < n) : SElemOk L n i (.fn f es, ds) :=
  ⟨hd, .inl ⟨f, es, rfl, ha, hs, hl⟩⟩

theorem SElemOk.unary {g : Fn K} {a : Expr K} {ds : List ℕ} (ha : LeafArg i a) (hs : TShape L g [a])
    (hl : ds.length = depCount g) (hd : ∀ d ∈ ds, d < n) : SElemOk L n i (unaryE g a, ds) := by
  cases a with
  | num m => exact ⟨hd, .inr ⟨_, rfl⟩⟩
  | fn f as => exact absurd ha.ok (by simp [ArgOk])
  | _ => exact .fn (List.forall_mem_singleton.2 ha) hs hl hd

theorem SElemOk.pow {a : Expr K} {x : K} (ha : LeafArg i a) (hx : x ≠ 1) : SElemOk L n i (powE a (.dbl x), []) := by
  have ho : (Num.dbl x).isOne = false := by simp [Num.isOne, Num.dbl, FVal.isOne, hx]
  have key : ∀ b : Expr K, LeafArg i b → SElemOk L n i (mkPow b (.num (.dbl x)), []) := fun b hb =>
    .fn (fun c hc => by
      rcases List.mem_cons.1 hc with rfl | hc
      · exact hb
      · rw [List.mem_singleton.1 hc]; trivial) ⟨_, _, rfl⟩ rfl (by simp)
  cases a with
  | num m => exact ⟨by simp, .inr ⟨_, rfl⟩⟩
  | fn f as => exact absurd ha.ok (by simp [ArgOk])
  | _ =>
    simp only [powE, Expr.dbl, ho, Bool.false_eq_true, if_false]
    split_ifs
    · exact ⟨by simp, .inr ⟨_, rfl⟩⟩
    · exact key _ ha

theorem mulE_leafK {e : Expr K} {s : String} (ha : LeafArg i e) (h1 : ∀ m, e = .num m → m.isOne = false) :
    (∃ m, mulE e (.var s) = .num m) ∨ mulE e (.var s) = mkProd [e, .var s] := by
  cases e with
  | num m =>
    have := h1 m rfl
    by_cases hz : m.isZero = true
    · exact .inl ⟨m, by simp [mulE, prodE, Expr.isNum, Expr.num?, this, hz]⟩
    · exact .inr (by simp [mulE, prodE, Expr.isNum, Expr.num?, this, hz, prodFinish])
  | fn f as => exact absurd ha.ok (by simp [ArgOk])
  | _ => exact .inr (by simp [mulE, prodE, Expr.isNum, Expr.num?, prodFinish])

theorem SElemOk.mul {e : Expr K} {j : ℕ} (ha : LeafArg i e) (hj : j < i) (h1 : ∀ m, e = .num m → m.isOne = false) :
    SElemOk L n i (mulE e (uvar j), []) := by
  unfold uvar
  rcases mulE_leafK (s := uname j) ha h1 with ⟨m, h⟩ | h
  · rw [h]; exact ⟨by simp, .inr ⟨_, rfl⟩⟩
  · rw [h]
    refine .fn (fun a hm => ?_) rfl rfl (by simp)
    rcases List.mem_cons.1 hm with rfl | hm
    · exact ha
    · rw [List.mem_singleton.1 hm]; exact ⟨j, hj, rfl⟩

theorem SElemOk.pair {f : Fn K} {c : K} {j : ℕ} (hj : j < i) (hs : ∀ a b : Expr K, TShape L f [a, b])
    (hl : depCount f = 0) : SElemOk L n i (.fn f [.dbl c, uvar j], []) :=
  .fn (fun a hm => by
    rcases List.mem_cons.1 hm with rfl | hm
    · trivial
    · rw [List.mem_singleton.1 hm]; exact targ_uvarK hj) (hs _ _) hl.symm (by simp)

theorem negE_uvarK (j : ℕ) : negE (uvar j : Expr K) = mkProd [.dbl (-1), uvar j] := by
  have h1 : ((-1 : K) = 1) = False := by
    rw [eq_iff_iff, iff_false]
    intro h
    have : (-1 : K) < 1 := by linarith [zero_lt_one (α := K)]
    exact absurd h this.ne
  simp [negE, uvar, prodE, Expr.isNum, Expr.num?, Expr.dbl, Num.isOne, Num.isZero, FVal.isOne, FVal.isZero, Num.dbl,
    prodFinish, h1]

theorem addE_uvarK (j : ℕ) : addE (.dbl 1) (uvar j : Expr K) = .fn .sum [.dbl 1, uvar j] := by
  simp [addE, uvar, sumE, Expr.isNum, Expr.num?, Expr.dbl, Num.isZero, FVal.isZero, Num.dbl, sumFinish]

theorem subE_uvarK (j : ℕ) : subE (uvar j : Expr K) (.dbl 1) = .fn .sum [.dbl (-1), uvar j] := by
  simp [subE, negE, addE, uvar, sumE, Expr.isNum, Expr.num?, Expr.dbl, Num.isZero, FVal.isZero, Num.dbl, sumFinish,
    Num.neg, FVal.neg]

theorem half_ne_one : (1 / 2 : K) ≠ 1 := by norm_num

theorem two_ne_oneK : (2 : K) ≠ 1 := by norm_num

/-- The elements appended for a function are well-formed. -/
theorem customDec_sok {f : Fn K} {as : List (Expr K)} (ha : ∀ a ∈ as, LeafArg n a) (hs : InShape L f as) :
    ∃ k d, customDec n f as = .ok (k, d) ∧ k < d.length ∧
      ∀ (j : ℕ) (e : TElem K), d[j]? = some e → SElemOk L (n + d.length) (n + j) e := by
  have one : as.length = 1 → ∃ a, as = [a] ∧ ∀ m, n ≤ m → ∀ b ∈ [a], LeafArg m b := fun h => by
    obtain ⟨a, rfl⟩ := List.length_eq_one_iff.1 h
    exact ⟨a, rfl, fun m hm b hb => targ_le (ha b hb) hm⟩
  have hA : ∀ m, n ≤ m → ∀ b ∈ as, LeafArg m b := fun m hm b hb => targ_le (ha b hb) hm
  have hdef : TShape L f as → depCount f = 0 → customDec n f as = .ok (0, [(.fn f as, [])]) →
      ∃ k d, customDec n f as = .ok (k, d) ∧ k < d.length ∧
      ∀ (j : ℕ) (e : TElem K), d[j]? = some e → SElemOk L (n + d.length) (n + j) e := by
    intro h1 h2 h3
    refine ⟨0, _, h3, by simp, fun j e he => ?_⟩
    rcases j with _ | j
    · cases he; exact .fn ha h1 h2.symm (by simp)
    · cases he
  obtain ⟨hs, hk⟩ := hs
  cases f
  case sin c =>
    obtain ⟨a, rfl, h1⟩ := one hs
    refine ⟨_, _, rfl, by simp, fun j e he => ?_⟩
    rcases j with _ | _ | j <;> cases he
    · exact .unary (h1 _ (by omega) _ (by simp)) rfl rfl (by simp)
    · exact .fn (h1 _ (by omega)) rfl rfl (by simp)
  case cos c =>
    obtain ⟨a, rfl, h1⟩ := one hs
    refine ⟨_, _, rfl, by simp, fun j e he => ?_⟩
    rcases j with _ | _ | j <;> cases he
    · exact .unary (h1 _ (by omega) _ (by simp)) rfl rfl (by simp)
    · exact .fn (h1 _ (by omega)) rfl rfl (by simp)
  case sinh =>
    obtain ⟨a, rfl, h1⟩ := one hs
    refine ⟨_, _, rfl, by simp, fun j e he => ?_⟩
    rcases j with _ | _ | j <;> cases he
    · exact .unary (h1 _ (by omega) _ (by simp)) rfl rfl (by simp)
    · exact .fn (h1 _ (by omega)) rfl rfl (by simp)
  case cosh =>
    obtain ⟨a, rfl, h1⟩ := one hs
    refine ⟨_, _, rfl, by simp, fun j e he => ?_⟩
    rcases j with _ | _ | j <;> cases he
    · exact .unary (h1 _ (by omega) _ (by simp)) rfl rfl (by simp)
    · exact .fn (h1 _ (by omega)) rfl rfl (by simp)
  case tan =>
    obtain ⟨a, rfl, h1⟩ := one hs
    refine ⟨_, _, rfl, by simp, fun j e he => ?_⟩
    rcases j with _ | _ | j <;> cases he
    · exact .fn (h1 _ (by omega)) rfl rfl (by simp)
    · exact .pow (targ_uvarK (by omega)) two_ne_oneK
  case tanh =>
    obtain ⟨a, rfl, h1⟩ := one hs
    refine ⟨_, _, rfl, by simp, fun j e he => ?_⟩
    rcases j with _ | _ | j <;> cases he
    · exact .fn (h1 _ (by omega)) rfl rfl (by simp)
    · exact .pow (targ_uvarK (by omega)) two_ne_oneK
  case sigmoid =>
    obtain ⟨a, rfl, h1⟩ := one hs
    refine ⟨_, _, rfl, by simp, fun j e he => ?_⟩
    rcases j with _ | _ | j <;> cases he
    · exact .fn (h1 _ (by omega)) rfl rfl (by simp)
    · exact .pow (targ_uvarK (by omega)) two_ne_oneK
  case atan =>
    obtain ⟨a, rfl, h1⟩ := one hs
    refine ⟨_, _, rfl, by simp, fun j e he => ?_⟩
    rcases j with _ | _ | j <;> cases he
    · exact .pow (h1 _ (by omega) _ (by simp)) two_ne_oneK
    · exact .fn (h1 _ (by omega)) rfl rfl (by simp)
  case atanh =>
    obtain ⟨a, rfl, h1⟩ := one hs
    refine ⟨_, _, rfl, by simp, fun j e he => ?_⟩
    rcases j with _ | _ | j <;> cases he
    · exact .pow (h1 _ (by omega) _ (by simp)) two_ne_oneK
    · exact .fn (h1 _ (by omega)) rfl rfl (by simp)
  case asin =>
    obtain ⟨a, rfl, h1⟩ := one hs
    refine ⟨_, _, rfl, by simp, fun j e he => ?_⟩
    rcases j with _ | _ | _ | _ | j <;> cases he
    · exact .pow (h1 _ (by omega) _ (by simp)) two_ne_oneK
    · exact .pair (by omega) (fun _ _ => rfl) rfl
    · exact .pow (targ_uvarK (by omega)) half_ne_one
    · exact .fn (h1 _ (by omega)) rfl rfl (by simp)
  case acos =>
    obtain ⟨a, rfl, h1⟩ := one hs
    refine ⟨_, _, rfl, by simp, fun j e he => ?_⟩
    rcases j with _ | _ | _ | _ | j <;> cases he
    · exact .pow (h1 _ (by omega) _ (by simp)) two_ne_oneK
    · exact .pair (by omega) (fun _ _ => rfl) rfl
    · exact .pow (targ_uvarK (by omega)) half_ne_one
    · exact .fn (h1 _ (by omega)) rfl rfl (by simp)
  case asinh =>
    obtain ⟨a, rfl, h1⟩ := one hs
    refine ⟨_, _, rfl, by simp, fun j e he => ?_⟩
    rcases j with _ | _ | _ | _ | j <;> cases he
    · exact .pow (h1 _ (by omega) _ (by simp)) two_ne_oneK
    · rw [addE_uvarK]; exact .pair (by omega) (fun _ _ => by simp [TShape]) rfl
    · exact .pow (targ_uvarK (by omega)) half_ne_one
    · exact .fn (h1 _ (by omega)) rfl rfl (by simp)
  case acosh =>
    obtain ⟨a, rfl, h1⟩ := one hs
    refine ⟨_, _, rfl, by simp, fun j e he => ?_⟩
    rcases j with _ | _ | _ | _ | j <;> cases he
    · exact .pow (h1 _ (by omega) _ (by simp)) two_ne_oneK
    · rw [subE_uvarK]; exact .pair (by omega) (fun _ _ => by simp [TShape]) rfl
    · exact .pow (targ_uvarK (by omega)) half_ne_one
    · exact .fn (h1 _ (by omega)) rfl rfl (by simp)
  case erf =>
    obtain ⟨a, rfl, h1⟩ := one hs
    refine ⟨_, _, rfl, by simp, fun j e he => ?_⟩
    rcases j with _ | _ | _ | _ | j <;> cases he
    · exact .pow (h1 _ (by omega) _ (by simp)) two_ne_oneK
    · rw [negE_uvarK]; exact .pair (by omega) (fun _ _ => rfl) rfl
    · exact .unary (targ_uvarK (by omega)) rfl rfl (by simp)
    · exact .fn (h1 _ (by omega)) rfl rfl (by simp)
  case atan2 =>
    obtain ⟨y, x, rfl⟩ := List.length_eq_two.1 hs
    refine ⟨_, _, rfl, by simp, fun j e he => ?_⟩
    rcases j with _ | _ | j <;> cases he
    · exact .fn (hA _ (by omega)) (by simp [TShape]) rfl (by simp)
    · exact .fn (hA _ (by omega)) rfl rfl (by simp)
  case kepE =>
    obtain ⟨e, m, rfl⟩ := List.length_eq_two.1 hs
    refine ⟨_, _, rfl, by simp, fun j x he => ?_⟩
    rcases j with _ | _ | _ | _ | j <;> cases he
    · exact .fn ha rfl rfl (by simp)
    · exact .unary (targ_uvarK (by omega)) rfl rfl (by simp)
    · exact .unary (targ_uvarK (by omega)) rfl rfl (by simp)
    · exact .mul (hA _ (by omega) _ (by simp)) (by omega) fun m hm => hk m (by simp [hm])
  case kepF =>
    obtain ⟨h, k, l, rfl⟩ := List.length_eq_three.1 hs
    refine ⟨_, _, rfl, by simp, fun j x he => ?_⟩
    rcases j with _ | _ | _ | _ | _ | j <;> cases he
    · exact .fn ha rfl rfl (by simp)
    · exact .unary (targ_uvarK (by omega)) rfl rfl (by simp)
    · exact .unary (targ_uvarK (by omega)) rfl rfl (by simp)
    · exact .mul (hA _ (by omega) _ (by simp)) (by omega) fun m hm => hk m (.inl (by simp [hm]))
    · exact .mul (hA _ (by omega) _ (by simp)) (by omega) fun m hm => hk m (.inr (by simp [hm]))
  all_goals first
    | exact hs.elim
    | exact hdef hs rfl (by cases as <;> rfl)

/-! ### The construction -/

/-- The invariant of the construction. -/
structure SInv (L : Fn K → Prop) (neq : ℕ) (dc : TDc K) : Prop where
  len : neq ≤ dc.length
  vars : ∀ (i : ℕ) (e : TElem K), i < neq → dc[i]? = some e → e.2 = []
  elem : ∀ (i : ℕ) (e : TElem K), neq ≤ i → dc[i]? = some e → SElemOk L dc.length i e

/-- The indices of the parameters among the arguments are 32-bit integers. -/
def ParsOk (as : List (Expr K)) : Prop := ∀ k, .par k ∈ as → k < 2 ^ 32

/-- The element `i` stands for a function. -/
def SDef (neq : ℕ) (dc : TDc K) (i : ℕ) (_ : Expr K) : Prop := neq ≤ i ∧ i < dc.length

theorem SInv.append {dc d : TDc K} (h : SInv L neq dc)
    (he : ∀ (k : ℕ) (e : TElem K), d[k]? = some e → SElemOk L (dc.length + d.length) (dc.length + k) e) :
    SInv L neq (dc ++ d) := by
  have hsplit : ∀ (i : ℕ) (e : TElem K), (dc ++ d)[i]? = some e → (i < dc.length ∧ dc[i]? = some e) ∨
      ∃ k, i = dc.length + k ∧ d[k]? = some e := by
    intro i e hi
    rcases Nat.lt_or_ge i dc.length with h1 | h1
    · rw [List.getElem?_append_left h1] at hi; exact .inl ⟨h1, hi⟩
    · rw [List.getElem?_append_right h1] at hi; exact .inr ⟨i - dc.length, by omega, hi⟩
  refine ⟨by have := h.len; simp; omega, ?_, ?_⟩
  · intro i e hi hie
    rcases hsplit i e hie with ⟨-, h1⟩ | ⟨k, rfl, h1⟩
    · exact h.vars i e hi h1
    · have := h.len; omega
  · intro i e hi hie
    rw [List.length_append]
    rcases hsplit i e hie with ⟨-, h1⟩ | ⟨k, rfl, h1⟩
    · exact (h.elem i e hi h1).mono (by omega)
    · exact he k e h1

section args
variable {dc : TDc K} {as as' : List (Expr K)}

theorem sstands_targ (hl : neq ≤ dc.length) (hst : List.Forall₂ (Stands (SDef neq) dc) as' as)
    (hlv : LeavesOk neq as) (hp : ParsOk as) : ∀ a ∈ as', LeafArg dc.length a := by
  induction hst with
  | nil => simp
  | @cons x y xs ys h1 _ ih =>
    intro a ha
    rcases List.mem_cons.1 ha with rfl | ha
    · unfold Stands at h1
      split at h1
      · obtain ⟨i, rfl, h2⟩ := h1
        exact ⟨i, h2.2, rfl⟩
      · rename_i hnf
        subst h1
        cases a with
        | var s =>
          obtain ⟨j, hj, rfl⟩ := hlv s List.mem_cons_self
          exact ⟨j, by omega, rfl⟩
        | fn f as => simp [Expr.isFn] at hnf
        | par k => exact hp k List.mem_cons_self
        | num m => trivial
    · exact ih (fun s hs => hlv s (List.mem_cons_of_mem _ hs)) (fun k hk => hp k (List.mem_cons_of_mem _ hk)) a ha

theorem sstands_shape (hst : List.Forall₂ (Stands (SDef neq) dc) as' as) {f : Fn K} (h : InShape L f as) :
    InShape L f as' := by
  have hlen := hst.length_eq
  have hnum : ∀ {x : Expr K} {m : Num K}, Stands (SDef neq) dc x (.num m) → x = .num m := by
    intro x m hx
    simpa [Stands, Expr.isFn] using hx
  have hnum' : ∀ {x y : Expr K} {m : Num K}, Stands (SDef neq) dc x y → x = .num m → y = .num m := by
    intro x y m hx hxm
    subst hxm
    unfold Stands at hx
    split at hx
    · obtain ⟨i, hi, -⟩ := hx; cases hi
    · exact hx.symm
  have hne : as ≠ [] → as' ≠ [] := by
    rintro h1 rfl
    exact h1 (List.length_eq_zero_iff.1 hlen.symm)
  obtain ⟨h, hk⟩ := h
  cases f
  case sum => exact ⟨hne h, trivial⟩
  case sumSq => exact ⟨hne h, trivial⟩
  case land => exact ⟨hne h, trivial⟩
  case lor => exact ⟨hne h, trivial⟩
  case pow k =>
    obtain ⟨x, m, rfl⟩ := h
    rcases hst with _ | ⟨h1, _ | ⟨h2, _ | _⟩⟩
    rw [hnum h2]
    exact ⟨⟨_, _, rfl⟩, trivial⟩
  case numId =>
    obtain ⟨m, rfl⟩ := h
    rcases hst with _ | ⟨h1, _ | _⟩
    rw [hnum h1]
    exact ⟨⟨_, rfl⟩, trivial⟩
  case kepE =>
    refine ⟨hlen.trans h, fun m hm => ?_⟩
    rcases hst with _ | ⟨h1, h2⟩
    · simp at hm
    · simp only [List.getElem?_cons_zero, Option.some.injEq] at hm
      exact hk m (by simp [hnum' h1 hm])
  case kepF =>
    refine ⟨hlen.trans h, fun m hm => ?_⟩
    rcases hst with _ | ⟨h1, _ | ⟨h2, h3⟩⟩
    · simp at hm
    · simp only [List.getElem?_cons_zero, Option.some.injEq, List.getElem?_cons_succ, List.getElem?_nil, reduceCtorEq,
        or_false] at hm
      exact hk m (.inl (by simp [hnum' h1 hm]))
    · simp only [List.getElem?_cons_zero, Option.some.injEq, List.getElem?_cons_succ] at hm
      rcases hm with hm | hm
      · exact hk m (.inl (by simp [hnum' h1 hm]))
      · exact hk m (.inr (by simp [hnum' h2 hm]))
  all_goals first
    | exact h.elim
    | exact ⟨hlen.trans h, trivial⟩
    | exact ⟨trivial, trivial⟩
    | exact ⟨⟨hlen.trans h.1, h.2⟩, trivial⟩
    | exact ⟨h, trivial⟩

end args

/-- The construction of the decomposition. -/
def shapeSpec (L : Fn K → Prop) (hneq : 0 < neq) : DecSpec (taylorFdc (K := K)) where
  Inv := SInv L neq
  Def := SDef neq
  good := fun f as => InShape L f as ∧ LeavesOk neq as ∧ ParsOk as
  mono := fun h => ⟨h.1, by have := h.2; simp; omega⟩
  ok := fun {dc f as as'} hi hg hst => by
    have hl := hi.len
    obtain ⟨k, d, h1, h2, h3⟩ := customDec_sok (n := dc.length) (sstands_targ hl hst hg.2.1 hg.2.2) (sstands_shape hst hg.1)
    refine ⟨dc.length + k, d, ?_, hi.append h3, by omega, by simp; omega⟩
    rw [taylorFdc, h1, Res.bind_ok]
    simp only []
    rw [if_neg (by simp only [List.length_append]; omega)]

theorem leaf_renamedK {P : Fn K → Prop} {names : List String} (hnd : names.Nodup) {e : Expr K}
    (hg : e.Good P (· ∈ names) (· < 2 ^ 32)) {s : String}
    (h : renameIn (renMap names) e = .var s) : ∃ j, j < names.length ∧ s = uname j := by
  cases e with
  | var s0 =>
    have hs : s0 ∈ names := hg
    obtain ⟨j, hj⟩ := List.mem_iff_getElem?.1 hs
    rw [renameIn, Expr.mapNodes, renameLeaf_var, renMap_lookup hnd hj] at h
    injection h with h
    exact ⟨j, (List.getElem?_eq_some_iff.1 hj).1, h.symm⟩
  | fn f as => rw [renameIn, rename_fn] at h; cases h
  | num n => simp [renameIn, Expr.mapNodes, renameLeaf] at h
  | par n => simp [renameIn, Expr.mapNodes, renameLeaf] at h

theorem par_renamedK {P : Fn K → Prop} {names : List String} {e : Expr K}
    (hg : e.Good P (· ∈ names) (· < 2 ^ 32)) {k : ℕ}
    (h : renameIn (renMap names) e = .par k) : k < 2 ^ 32 := by
  cases e with
  | var s0 => rw [renameIn, Expr.mapNodes, renameLeaf_var] at h; cases h
  | fn f as => rw [renameIn, rename_fn] at h; cases h
  | num n => simp [renameIn, Expr.mapNodes, renameLeaf] at h
  | par n =>
    simp only [renameIn, Expr.mapNodes, renameLeaf] at h
    injection h with h
    subst h
    exact hg

theorem renameIn_num {names : List String} {e : Expr K} {m : Num K} (h : renameIn (renMap names) e = .num m) :
    e = .num m := by
  cases e with
  | num k => simpa [renameIn, Expr.mapNodes, renameLeaf] using h
  | par k => simp [renameIn, Expr.mapNodes, renameLeaf] at h
  | var s => rw [renameIn, Expr.mapNodes, renameLeaf_var] at h; cases h
  | fn f as => rw [renameIn, rename_fn] at h; cases h

theorem InShape.rename {names : List String} {f : Fn K} {as : List (Expr K)} (h : InShape L f as) :
    InShape L f (as.map (renameIn (renMap names))) := by
  obtain ⟨h, hk⟩ := h
  refine ⟨h.map fun m => rfl, ?_⟩
  cases f
  case kepE =>
    intro m hm
    rw [List.getElem?_map, Option.map_eq_some_iff] at hm
    obtain ⟨a, h1, h2⟩ := hm
    exact hk m (by rw [h1, renameIn_num h2])
  case kepF =>
    intro m hm
    rcases hm with hm | hm <;>
    · rw [List.getElem?_map, Option.map_eq_some_iff] at hm
      obtain ⟨a, h1, h2⟩ := hm
      exact hk m (by rw [h1, renameIn_num h2]; simp)
  all_goals trivial

theorem renamed_shape {P : Fn K → Prop} {names : List String} (hnd : names.Nodup) {e : Expr K}
    (hg : e.Good P (· ∈ names) (· < 2 ^ 32)) (hr : e.AllFns (InShape L)) :
    (renameIn (renMap names) e).AllFns fun f as => InShape L f as ∧ LeavesOk names.length as ∧ ParsOk as := by
  induction e using Expr.ind with
  | num n => simp [renameIn, Expr.mapNodes, renameLeaf, Expr.AllFns]
  | par n => simp [renameIn, Expr.mapNodes, renameLeaf, Expr.AllFns]
  | var s => rw [renameIn, Expr.mapNodes, renameLeaf_var]; trivial
  | fn f args ih =>
    have hga := (Expr.good_fn.1 hg).2
    rw [renameIn, rename_fn]
    refine ⟨⟨hr.1.rename, ?_, ?_⟩, Expr.allFnsL_iff.2 fun a ha => ?_⟩
    · intro s hs
      obtain ⟨b, hb, hbs⟩ := List.mem_map.1 hs
      exact leaf_renamedK hnd (hga b hb) hbs
    · intro k hk
      obtain ⟨b, hb, hbk⟩ := List.mem_map.1 hk
      exact par_renamedK (hga b hb) hbk
    · obtain ⟨b, hb, rfl⟩ := List.mem_map.1 ha
      exact ih b hb (hga b hb) (Expr.allFnsL_iff.1 hr.2 b hb)

theorem allFns_consistentK {U : Sym.Node K → Prop} (hU : Consistent U) (Q : Fn K → List (Expr K) → Prop) :
    Consistent fun n => U n ∧ n.toExpr.AllFns Q where
  closed := fun {id sid f args} h a ha => ⟨hU.closed h.1 a ha, by
    have := h.2
    rw [Node.toExpr, Node.toExprL_eq_map] at this
    exact Expr.allFnsL_iff.1 this.2 _ (List.mem_map_of_mem ha)⟩
  id_inj := fun h h' => hU.id_inj h.1 h'.1
  sid_inj := fun h h' => hU.sid_inj h.1 h'.1

/-- What is assumed of an expression: the variables are state variables, the indices of the parameters are 32-bit integers
(as in `include/heyoka/param.hpp`), and after the rewriting the functions have the
shapes accepted by the recurrences. -/
structure SysShape (L : Fn K → Prop) (names : List String) (e : Expr K) : Prop where
  good : (rewritesTaylor e).Good (fun _ => True) (· ∈ names) (· < 2 ^ 32)
  shape : (rewritesTaylor e).AllFns (InShape L)

theorem decSys_sok {names : List String} (hneq : names ≠ []) (hnd : names.Nodup)
    {share : List (Expr K) → List (Sym.Node K)} {es : List (Expr K)} (hes : ∀ e ∈ es, SysShape L names e)
    (hsh : Represents (share (sysExprs names es)) (sysExprs names es)) :
    ∃ N dc outs, (∀ fuel, N ≤ fuel → decSys fuel share names es = some (.ok (dc, outs))) ∧
      SInv L names.length dc ∧ outs.length = es.length ∧ (∀ a ∈ outs, ArgOk dc.length a) ∧
      List.Forall₂ (fun a e => (rewritesTaylor e).isNum = false → (∀ i, rewritesTaylor e ≠ .par i) →
        ∃ j, a = .var (uname j) ∧ j < dc.length) outs es := by
  have hneq' : 0 < names.length := List.length_pos_iff.2 hneq
  obtain ⟨h, roots, hv, hroots, hshare, hes'⟩ := hsh
  have hmem : ∀ n ∈ roots.map h.unfold, n.toExpr ∈ sysExprs names es := fun n hn => by
    rw [← hes', hshare]; exact List.mem_map_of_mem hn
  have hinv : SInv L names.length (names.map fun s => ((.var s, []) : TElem K)) := by
    refine ⟨by simp, fun i e hi he => ?_, fun i e hi he => ?_⟩
    · rw [List.getElem?_map, Option.map_eq_some_iff] at he
      obtain ⟨s, -, rfl⟩ := he
      rfl
    · rw [List.getElem?_eq_none (by simpa using hi)] at he
      cases he
  obtain ⟨N, d, outs, h1, h2, h3⟩ := (shapeSpec (K := K) L hneq').decAll_eq
    (allFns_consistentK (Heap.consistent hv) fun f as => InShape L f as ∧ LeavesOk names.length as ∧ ParsOk as)
    (fun id sid f args hu => by
      have := hu.2
      rw [Node.toExpr] at this
      exact this.1)
    (roots.map h.unfold) (fun n hn => by
      refine ⟨?_, ?_⟩
      · obtain ⟨r, hr, rfl⟩ := List.mem_map.1 hn
        exact ⟨r, hroots r hr, rfl⟩
      · obtain ⟨e, he, hee⟩ := List.mem_map.1 (hmem n hn)
        rw [← hee]
        exact renamed_shape hnd (hes e he).good (hes e he).shape)
    [] [] (names.map fun s => (.var s, [])) hinv (by intro id r h; simp at h) (by intro k s h; simp at h)
  rw [← hshare, hes'] at h3
  have hleaves : LeavesOk names.length (sysExprs names es) := fun s hs => by
    obtain ⟨e, he, hee⟩ := List.mem_map.1 hs
    exact leaf_renamedK hnd (hes e he).good hee
  have hpars : ParsOk (sysExprs names es) := fun k hk => by
    obtain ⟨e, he, hee⟩ := List.mem_map.1 hk
    exact par_renamedK (hes e he).good hee
  have h4 := fun a ha => (sstands_targ h2.len h3 hleaves hpars a ha).ok
  refine ⟨N, _, outs, fun fuel hf => ?_, h2, ?_, h4, ?_⟩
  · rw [decSys, hshare]; exact h1 fuel hf
  · rw [h3.length_eq]; simp [sysExprs]
  · rw [sysExprs, List.forall₂_map_right_iff] at h3
    have h5 : List.Forall₂ (fun a e => ArgOk (List.map (fun s => ((.var s, []) : TElem K)) names ++ d).length a ∧
        Stands (SDef names.length) (List.map (fun s => ((.var s, []) : TElem K)) names ++ d) a
          (renameIn (renMap names) (rewritesTaylor e))) outs es := (List.forall₂_and_left ..).2 ⟨h4, h3⟩
    refine h5.imp fun a e hae hn hp => ?_
    obtain ⟨ha, hst⟩ := hae
    have hvar : ∃ s, a = .var s := by
      unfold Stands at hst
      split at hst
      · obtain ⟨i, rfl, -⟩ := hst
        exact ⟨_, rfl⟩
      · rename_i hf
        subst hst
        generalize rewritesTaylor e = e' at hn hp hf
        cases e' with
        | num m => simp [Expr.isNum] at hn
        | par m => exact absurd rfl (hp m)
        | var s => exact ⟨_, by rw [renameIn, Expr.mapNodes, renameLeaf_var]⟩
        | fn f as => rw [renameIn, rename_fn] at hf; simp [Expr.isFn] at hf
    obtain ⟨s, rfl⟩ := hvar
    obtain ⟨j, hj, rfl⟩ := ha
    exact ⟨j, rfl, hj⟩

theorem svfIndices_sok (hn : n ≤ 2 ^ 32) {outs : List (Expr K)}
    (h : ∀ a ∈ outs, ∃ j, a = .var (uname j) ∧ j < n) :
    ∃ is, svfIndices outs = .ok is ∧ ∀ u ∈ is, u < n := by
  induction outs with
  | nil => exact ⟨[], rfl, by simp⟩
  | cons a outs ih =>
    obtain ⟨is, h2, h3⟩ := ih fun a ha => h a (List.mem_cons_of_mem _ ha)
    obtain ⟨j, rfl, hj⟩ := h a List.mem_cons_self
    refine ⟨j :: is, ?_, ?_⟩
    · rw [svfIndices, unameToIndex_uname, if_pos (by omega), Res.bind_ok, h2]
      rfl
    · simp only [List.mem_cons, forall_eq_or_imp]
      exact ⟨hj, h3⟩

theorem rawSys_sok {names : List String} (hneq : names ≠ []) (hnd : names.Nodup)
    {share : List (Expr K) → List (Sym.Node K)} {rhs svf : List (Expr K)}
    (hlen : rhs.length = names.length) (hes : ∀ e ∈ rhs ++ svf, SysShape L names e)
    (hsvf : ∀ e ∈ svf, (rewritesTaylor e).isNum = false ∧ ∀ i, rewritesTaylor e ≠ .par i)
    (hsh : Represents (share (sysExprs names (rhs ++ svf))) (sysExprs names (rhs ++ svf))) :
    ∃ N dc outs, (∀ fuel, N ≤ fuel → decSys fuel share names (rhs ++ svf) = some (.ok (dc, outs))) ∧
      (dc.length + names.length ≤ 2 ^ 32 → ∃ dc' is,
        (∀ fuel, N ≤ fuel → rawSys fuel share names rhs svf = some (.ok (dc', is))) ∧
        dc'.length ≤ 2 ^ 32 ∧ SSysOk L names.length dc' is) := by
  obtain ⟨N, dc, outs, h1, h2, h3, h4, h5⟩ := decSys_sok hneq hnd hes hsh
  refine ⟨N, dc, outs, h1, fun hb => ?_⟩
  have hol : outs.length = rhs.length + svf.length := by rw [h3, List.length_append]
  have hot : (outs.take rhs.length).length = names.length := by rw [List.length_take]; omega
  have hF2 : ∀ a ∈ outs.drop rhs.length, ∃ j, a = .var (uname j) ∧ j < dc.length := by
    intro a ha
    obtain ⟨i, hi⟩ := List.mem_iff_getElem?.1 ha
    have hil := (List.getElem?_eq_some_iff.1 hi).1
    rw [List.length_drop] at hil
    rw [List.getElem?_drop] at hi
    have h8 := (List.forall₂_iff_get.1 h5).2 (rhs.length + i) (by omega) (by simp; omega)
    simp only [List.get_eq_getElem] at h8
    rw [List.getElem_append_right (by omega)] at h8
    simp only [Nat.add_sub_cancel_left, (List.getElem?_eq_some_iff.1 hi).2] at h8
    have h7 := hsvf (svf[i]'(by omega)) (List.getElem_mem _)
    exact h8 h7.1 h7.2
  obtain ⟨is, h7, h8⟩ := svfIndices_sok (by omega) hF2
  have hl : (dc ++ (outs.take rhs.length).map fun a => ((a, []) : TElem K)).length - names.length = dc.length := by
    rw [List.length_append, List.length_map, hot]; omega
  refine ⟨dc ++ (outs.take rhs.length).map (·, []), is, fun fuel hf => ?_, ?_, ?_⟩
  · rw [rawSys, h1 fuel hf]
    simp [h7]
  · rw [List.length_append, List.length_map, hot]; omega
  · have h9 := h2.len
    refine ⟨by rw [List.length_append, List.length_map, hot]; omega, ?_, ?_, ?_, ?_⟩
    · intro i e he hi
      rw [List.getElem?_append_left (by omega)] at he
      exact h2.vars i e hi he
    · intro i e he hi hi'
      rw [hl] at hi' ⊢
      rw [List.getElem?_append_left hi'] at he
      exact h2.elem i e hi he
    · intro i e hi he
      rw [hl] at he ⊢
      rw [List.getElem?_append_right (by omega), Nat.add_sub_cancel_left, List.getElem?_map,
        Option.map_eq_some_iff] at he
      obtain ⟨a, ha, rfl⟩ := he
      rw [List.getElem?_take_of_lt (by omega)] at ha
      exact ⟨rfl, h4 a (List.mem_of_getElem? ha)⟩
    · rw [hl]; exact h8

theorem simplifySys_monoK {fuel fuel' neq : ℕ} {dc : TDc K} {svf : List ℕ} {r}
    (h : simplifySys fuel neq dc svf = some r) (hf : fuel ≤ fuel') : simplifySys fuel' neq dc svf = some r := by
  unfold simplifySys at h ⊢
  cases hc : tcse neq dc svf with
  | throw => rw [hc] at h; exact h
  | ub => rw [hc] at h; exact h
  | ok p =>
    obtain ⟨dc1, svf1⟩ := p
    rw [hc] at h
    simp only [Option.map_eq_some_iff] at h ⊢
    obtain ⟨r1, h1, h2⟩ := h
    refine ⟨r1, ?_, h2⟩
    unfold tsort at h1 ⊢
    simp only at h1 ⊢
    cases hg : graphEdges neq 0 ((dc1.take (dc1.length - neq)).map Prod.fst) with
    | throw => rw [hg] at h1; exact h1
    | ub => rw [hg] at h1; exact h1
    | ok es =>
      rw [hg] at h1
      simp only at h1 ⊢
      cases hk : kahnLoop fuel es [0] [] with
      | none => rw [hk] at h1; cases h1
      | some p =>
        rw [kahnLoop_mono hk fuel' hf]
        rw [hk] at h1
        exact h1

/-- The decomposition of a system is produced, and is well-formed, with functions only. -/
theorem decomposeSys_sok {names : List String} (hneq : names ≠ []) (hnd : names.Nodup)
    {share : List (Expr K) → List (Sym.Node K)} {rhs svf : List (Expr K)}
    (hlen : rhs.length = names.length) (hes : ∀ e ∈ rhs ++ svf, SysShape L names e)
    (hsvf : ∀ e ∈ svf, (rewritesTaylor e).isNum = false ∧ ∀ i, rewritesTaylor e ≠ .par i)
    (hsh : Represents (share (sysExprs names (rhs ++ svf))) (sysExprs names (rhs ++ svf)))
    (hsize : 2 * names.length + 5 * Expr.fnCountL (sysExprs names (rhs ++ svf)) ≤ 2 ^ 32) :
    ∃ N dc is, (∀ fuel, N ≤ fuel → decomposeSys fuel share names rhs svf = some (.ok (dc, is))) ∧
      dc.length ≤ 2 ^ 32 ∧ SSysOk L names.length dc is ∧
      ∀ (i : ℕ) (e : TElem K), dc[i]? = some e → names.length ≤ i → i < dc.length - names.length →
        ∃ f es, e.1 = .fn f es := by
  obtain ⟨N, dc0, outs0, h1, h2⟩ := rawSys_sok hneq hnd hlen hes hsvf hsh
  have hb : dc0.length + names.length ≤ 2 ^ 32 := by
    obtain ⟨_, _, _, _, _, hs⟩ := hsh
    have := decSys_size hs (h1 N (le_refl _))
    omega
  obtain ⟨dc1, is1, h3, h4, h5⟩ := h2 hb
  obtain ⟨h6, h7⟩ := ssimplifySys_ok h5 h4 (dc1.length + 1)
  obtain ⟨r, hr⟩ := h7 (le_refl _)
  obtain ⟨dc, is, rfl, h8, h9, h10⟩ := h6 r hr
  refine ⟨max N (dc1.length + 1), dc, is, fun fuel hf => ?_, by omega, h9, h10⟩
  rw [decomposeSys, h3 fuel (by omega)]
  exact simplifySys_monoK hr (by omega)

end Heyoka.Taylor
