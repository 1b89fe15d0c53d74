import Verif.Compact.Real
import Verif.Props.Decompose

/-!
# Expressions built with the public constructors
-/

set_option linter.unusedSectionVars false

namespace Heyoka.Sym

section
variable {K : Type} [Field K] [LinearOrder K] [FloorRing K] [Interp K]

/-- The functions constructed by `unaryE`. -/
def unaryFns : List (Fn K) :=
  [.sin false, .cos false, .tan, .asin, .acos, .atan, .sinh, .cosh, .tanh, .asinh, .acosh, .atanh, .erf, .exp, .log,
    .sigmoid]

/-- The expressions obtained from numbers, variables and parameters with the public constructors: the arithmetic
operators, `sum()`, `prod()`, `pow()`, `sqrt()`, the elementary functions, the rectifiers with slopes in `S`,
the relational and logical functions, the solvers of Kepler's equation, the time, the constant pi. -/
inductive Built (S : K → Prop) : Expr K → Prop
  | num (n : Num K) : Built S (.num n)
  | var (s : String) : Built S (.var s)
  | par (i : Nat) : Built S (.par i)
  | sum {as : List (Expr K)} (h : ∀ a ∈ as, Built S a) : Built S (sumE as)
  | prod {as : List (Expr K)} (h : ∀ a ∈ as, Built S a) : Built S (prodE as)
  | pow {a b : Expr K} (ha : Built S a) (hb : Built S b) : Built S (powE a b)
  | neg {a : Expr K} (ha : Built S a) : Built S (negE a)
  | add {a b : Expr K} (ha : Built S a) (hb : Built S b) : Built S (addE a b)
  | sub {a b : Expr K} (ha : Built S a) (hb : Built S b) : Built S (subE a b)
  | mul {a b : Expr K} (ha : Built S a) (hb : Built S b) : Built S (mulE a b)
  | div {a b : Expr K} (ha : Built S a) (hb : Built S b) : Built S (divE a b)
  | unary {a : Expr K} (f : Fn K) (hf : f ∈ unaryFns) (ha : Built S a) : Built S (unaryE f a)
  | sqrt {a : Expr K} (ha : Built S a) : Built S (sqrtE a)
  | atan2 {a b : Expr K} (ha : Built S a) (hb : Built S b) : Built S (atan2E a b)
  | relu {a : Expr K} (s : K) (hs : S s) (ha : Built S a) : Built S (reluE s a)
  | relup {a : Expr K} (s : K) (hs : S s) (ha : Built S a) : Built S (relupE s a)
  | select {a b c : Expr K} (ha : Built S a) (hb : Built S b) (hc : Built S c) : Built S (selectE a b c)
  | rel {a b : Expr K} (op : RelOp) (ha : Built S a) (hb : Built S b) : Built S (relE op a b)
  | land {as : List (Expr K)} (h : ∀ a ∈ as, Built S a) : Built S (landE as)
  | lor {as : List (Expr K)} (h : ∀ a ∈ as, Built S a) : Built S (lorE as)
  | kepE {a b : Expr K} (ha : Built S a) (hb : Built S b) : Built S (kepEE a b)
  | kepF {a b c : Expr K} (ha : Built S a) (hb : Built S b) (hc : Built S c) : Built S (kepFE a b c)
  | kepDE {a b c : Expr K} (ha : Built S a) (hb : Built S b) (hc : Built S c) : Built S (kepDEE a b c)
  | time : Built S timeE
  | pi : Built S piE

end

section
variable [FmtName ℝ] {S : ℝ → Prop}

/-- The conditions used in the proofs. -/
def BOk (S : ℝ → Prop) (e : Expr ℝ) : Prop := e.Tidy ∧ e.Good (Fn.lib S) (fun _ => True) fun _ => True

theorem bok_fn {f : Fn ℝ} {args : List (Expr ℝ)} (hf : f.lib S) (hp : f.plain = true) (h : ∀ a ∈ args, BOk S a) :
    BOk S (.fn f args) := by
  refine ⟨tidy_fn.2 ⟨?_, fun a ha => (h a ha).1⟩, Expr.good_fn.2 ⟨hf, fun a ha => (h a ha).2⟩⟩
  cases f <;> first | exact ⟨rfl, trivial⟩ | simp [Fn.plain] at hp

theorem bok_num (n : Num ℝ) : BOk S (.num n) := ⟨trivial, trivial⟩

theorem bok_dbl (x : ℝ) : BOk S (.dbl x) := bok_num _

theorem forall_pair {P : Expr ℝ → Prop} {a b : Expr ℝ} (ha : P a) (hb : P b) : ∀ x ∈ [a, b], P x := by
  intro x hx
  simp only [List.mem_cons, List.not_mem_nil, or_false] at hx
  rcases hx with rfl | rfl
  · exact ha
  · exact hb

theorem forall_triple {P : Expr ℝ → Prop} {a b c : Expr ℝ} (ha : P a) (hb : P b) (hc : P c) :
    ∀ x ∈ [a, b, c], P x := by
  intro x hx
  simp only [List.mem_cons, List.not_mem_nil, or_false] at hx
  rcases hx with rfl | rfl | rfl
  · exact ha
  · exact hb
  · exact hc

theorem forall_one {P : Expr ℝ → Prop} {a : Expr ℝ} (ha : P a) : ∀ x ∈ [a], P x := by
  intro x hx
  rw [List.mem_singleton] at hx
  rw [hx]; exact ha

theorem bok_sum {as : List (Expr ℝ)} (h : ∀ a ∈ as, BOk S a) : BOk S (sumE as) :=
  ⟨sumE_tidy fun a ha => (h a ha).1, sumE_good (lib_rewClosed S) fun a ha => (h a ha).2⟩

theorem bok_prod {as : List (Expr ℝ)} (h : ∀ a ∈ as, BOk S a) : BOk S (prodE as) :=
  ⟨prodE_tidy fun a ha => (h a ha).1, prodE_good (lib_rewClosed S) fun a ha => (h a ha).2⟩

theorem bok_pow {a b : Expr ℝ} (ha : BOk S a) (hb : BOk S b) : BOk S (powE a b) :=
  ⟨powE_tidy ha.1 hb.1, powE_good (lib_rewClosed S) ha.2 hb.2⟩

theorem bok_neg {a : Expr ℝ} (ha : BOk S a) : BOk S (negE a) := by
  unfold negE
  split
  · exact bok_num _
  · exact bok_prod (forall_pair (bok_dbl _) ha)

theorem bok_add {a b : Expr ℝ} (ha : BOk S a) (hb : BOk S b) : BOk S (addE a b) := by
  unfold addE
  split
  · exact bok_num _
  · exact bok_sum (forall_pair ha hb)

/-- What the constructors preserve. -/
theorem built_ok {e : Expr ℝ} (h : Built S e) : BOk S e := by
  induction h with
  | num n => exact bok_num n
  | var s => exact ⟨trivial, trivial⟩
  | par i => exact ⟨trivial, trivial⟩
  | sum _ ih => exact bok_sum ih
  | prod _ ih => exact bok_prod ih
  | pow _ _ ha hb => exact bok_pow ha hb
  | neg _ ha => exact bok_neg ha
  | add _ _ ha hb => exact bok_add ha hb
  | sub _ _ ha hb =>
    unfold subE
    split
    · exact bok_num _
    · exact bok_add ha (bok_neg hb)
  | mul _ _ ha hb =>
    unfold mulE
    split
    · exact bok_num _
    · exact bok_prod (forall_pair ha hb)
  | div _ _ ha hb =>
    unfold divE
    split
    · exact bok_num _
    · exact bok_prod (forall_pair ha (bok_pow hb (bok_dbl _)))
  | unary f hf _ ha =>
    unfold unaryE
    split
    · exact bok_num _
    · have : f.builtin ∧ f.plain = true := by
        simp only [unaryFns, List.mem_cons, List.not_mem_nil, or_false] at hf
        rcases hf with rfl | rfl | rfl | rfl | rfl | rfl | rfl | rfl | rfl | rfl | rfl | rfl | rfl | rfl | rfl | rfl <;>
          exact ⟨trivial, rfl⟩
      exact bok_fn (.inl this.1) this.2 (forall_one ha)
  | sqrt _ ha => exact bok_pow ha (bok_dbl _)
  | atan2 _ _ ha hb =>
    unfold atan2E
    split
    · exact bok_num _
    · exact bok_fn (.inl trivial) rfl (forall_pair ha hb)
  | relu s hs _ ha =>
    unfold reluE
    split
    · exact bok_num _
    · exact bok_fn (.inr (.inr ⟨s, hs, .inl rfl⟩)) rfl (forall_one ha)
  | relup s hs _ ha =>
    unfold relupE
    split
    · exact bok_num _
    · exact bok_fn (.inr (.inr ⟨s, hs, .inr rfl⟩)) rfl (forall_one ha)
  | select _ _ _ ha hb hc => exact bok_fn (.inl trivial) rfl (forall_triple ha hb hc)
  | rel op _ _ ha hb => exact bok_fn (.inl trivial) rfl (forall_pair ha hb)
  | land _ ih =>
    unfold landE
    split
    · exact bok_dbl _
    · exact ih _ (by simp)
    · exact bok_fn (.inl trivial) rfl ih
  | lor _ ih =>
    unfold lorE
    split
    · exact bok_dbl _
    · exact ih _ (by simp)
    · exact bok_fn (.inl trivial) rfl ih
  | kepE _ _ ha hb =>
    unfold kepEE
    split
    · split_ifs
      · exact hb
      · exact bok_fn (.inl trivial) rfl (forall_pair ha hb)
    · exact bok_fn (.inl trivial) rfl (forall_pair ha hb)
  | kepF _ _ _ ha hb hc =>
    unfold kepFE
    split
    · split_ifs
      · exact hc
      · exact bok_fn (.inl trivial) rfl (forall_triple ha hb hc)
    · exact bok_fn (.inl trivial) rfl (forall_triple ha hb hc)
  | kepDE _ _ _ ha hb hc =>
    unfold kepDEE
    split
    · split_ifs
      · exact hc
      · exact bok_fn (.inl trivial) rfl (forall_triple ha hb hc)
    · exact bok_fn (.inl trivial) rfl (forall_triple ha hb hc)
  | time => exact bok_fn (.inl trivial) rfl (by simp)
  | pi => exact bok_fn (.inr (.inl rfl)) rfl (by simp)

theorem fnAll_of_good {P : Fn ℝ → Prop} {Q : String → Prop} {R : Nat → Prop} {e : Expr ℝ} (h : e.Good P Q R) :
    e.FnAll P := by
  induction e using Expr.ind with
  | fn f args ih =>
    rw [Expr.good_fn] at h
    refine ⟨h.1, ?_⟩
    have : ∀ l : List (Expr ℝ), (∀ a ∈ l, a ∈ args) → Expr.FnAllL P l := by
      intro l
      induction l with
      | nil => intro _; trivial
      | cons a l ihl =>
        intro hm
        exact ⟨ih a (hm a List.mem_cons_self) (h.2 a (hm a List.mem_cons_self)),
          ihl fun b hb => hm b (List.mem_cons_of_mem _ hb)⟩
    exact this args fun _ h => h
  | _ => trivial

end

end Heyoka.Sym
