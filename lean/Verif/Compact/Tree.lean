import Verif.Compact.Names
import Verif.CFunc.Lemmas
import Verif.Expr.RewriteLemmas

/-!
# The evaluation of nested functions
-/

set_option linter.unusedSectionVars false

namespace Heyoka.Sym

variable {K : Type}

section
variable [Interp K]

mutual
/-- The value of a tree of functions, given the values of its leaves. -/
def treeVal (v : Env K) (L : Expr K → Option K) : Expr K → Option K
  | .fn f args => appO v f (treeValL v L args)
  | .num n => L (.num n)
  | .var s => L (.var s)
  | .par i => L (.par i)
/-- The values of several trees. -/
def treeValL (v : Env K) (L : Expr K → Option K) : List (Expr K) → List (Option K)
  | [] => []
  | e :: es => treeVal v L e :: treeValL v L es
end

theorem treeValL_eq (v : Env K) (L : Expr K → Option K) (es : List (Expr K)) :
    treeValL v L es = es.map (treeVal v L) := by
  induction es with
  | nil => rfl
  | cons e es ih => rw [treeValL, ih]; rfl

end

section
variable [Field K] [LinearOrder K] [FloorRing K] [Interp K] [CodeInterp K] [FmtName K]

/-- The values of the arguments which are numbers. -/
def NumsMatch (args : List (Expr K)) (xs : List K) : Prop :=
  args.length = xs.length ∧ ∀ (i : Nat) (n : Num K) (x : K), args[i]? = some (.num n) → xs[i]? = some x →
    n.toK? = some x

/-- The generated code computes the function, provided that the variant of the code is the one for the
arguments. -/
def CodeSound (P : Fn K → Prop) : Prop :=
  ∀ (f : Fn K) (args : List (Expr K)) (xs : List K), P f → codeOf f args = f → NumsMatch args xs →
    CodeInterp.code f xs = Interp.app f xs

/-- The LLVM names determine the code, and do not contain the separators. -/
structure LlvmSound (P : Fn K → Prop) : Prop where
  code : ∀ f g : Fn K, P f → P g → f.llvmName = g.llvmName →
    (CodeInterp.code f : List K → Option K) = CodeInterp.code g ∧ (f = .time ↔ g = .time)
  chars : ∀ f, P f → NameOk f

/-- The conditions on the functions in a tree: the symbols satisfy `P`, the names are up to date, the time is used
only if `T` holds. -/
def Expr.TreeOk (P : Fn K → Prop) (T : Prop) (e : Expr K) : Prop :=
  e.AllFns fun f args => P f ∧ codeOf f args = f ∧ (f = .time → T)

theorem treeOk_fn {P : Fn K → Prop} {T : Prop} {f : Fn K} {args : List (Expr K)} :
    (Expr.fn f args).TreeOk P T ↔ (P f ∧ codeOf f args = f ∧ (f = .time → T)) ∧ ∀ a ∈ args, a.TreeOk P T := by
  rw [Expr.TreeOk, Expr.AllFns, Expr.allFnsL_iff]
  rfl

theorem treeOk_leaf {P : Fn K → Prop} {T : Prop} {e : Expr K} (h : e.isFn = false) : e.TreeOk P T := by
  cases e with
  | fn f as => simp [Expr.isFn] at h
  | _ => trivial

theorem forall₂_append_split {α β : Type} {R : α → β → Prop} : ∀ {l1 l2 : List α} {xs : List β},
    List.Forall₂ R (l1 ++ l2) xs → ∃ x1 x2, xs = x1 ++ x2 ∧ List.Forall₂ R l1 x1 ∧ List.Forall₂ R l2 x2
  | [], l2, xs, h => ⟨[], xs, rfl, .nil, h⟩
  | a :: l1, l2, xs, h => by
    cases h with
    | cons h1 h2 =>
      obtain ⟨x1, x2, rfl, h3, h4⟩ := forall₂_append_split h2
      exact ⟨_ :: x1, x2, rfl, .cons h1 h3, h4⟩

theorem allSome_get {xs : List (Option K)} : ∀ {ys : List K}, allSome xs = some ys →
    xs.length = ys.length ∧ ∀ (i : Nat) (y : K), ys[i]? = some y → xs[i]? = some (some y) := by
  induction xs with
  | nil => intro ys h; simp [allSome] at h; subst h; simp
  | cons x xs ih =>
    intro ys h
    rw [allSome] at h
    cases x with
    | none => cases h
    | some a =>
      cases h1 : allSome xs with
      | none => rw [h1] at h; cases h
      | some l =>
        rw [h1] at h
        simp only [Option.bind_some, Option.map_some, Option.some.injEq] at h
        subst h
        obtain ⟨h2, h3⟩ := ih h1
        refine ⟨by simp [h2], fun i y hy => ?_⟩
        cases i with
        | zero => simpa using hy
        | succ i => exact h3 i y (by simpa using hy)

theorem fnCode_eq {b : Nat} {timep : Ptr K} {f : Fn K} {xs : List (List (Option K))} (h : f ≠ .time ∨ xs ≠ []) :
    fnCode b timep f xs = .ok ((List.range b).map fun l => (allSome (laneOf l xs)).bind (CodeInterp.code f)) := by
  unfold fnCode
  split
  · rcases h with h | h <;> exact absurd rfl h
  · rfl

variable {P : Fn K → Prop} {T : Prop} {b : Nat} {timep : Ptr K} {vs : Nat → Env K} {L : Nat → Expr K → Option K}

theorem fnCode_ok (hcode : CodeSound P) (ht : TimeOk b timep vs T) (hL : ∀ l, l < b → ∀ n, L l (.num n) = n.toK?)
    {f : Fn K} {args : List (Expr K)} (hf : P f) (hc : codeOf f args = f) (hT : f = .time → T)
    {V : List (List (Option K))} (hlen : V.length = args.length)
    (hV : Lanes b V fun l => treeValL (vs l) (L l) args) :
    ∃ w, fnCode b timep f V = .ok w ∧ IsVec b w fun l => treeVal (vs l) (L l) (.fn f args) := by
  by_cases hcase : f = .time ∧ V = []
  · obtain ⟨rfl, rfl⟩ := hcase
    have hargs : args = [] := List.length_eq_zero_iff.1 (by simpa using hlen.symm)
    subst hargs
    obtain ⟨vec, h1, h2⟩ := loadVec_ok b 0 (fun l => (vs l).time) (p := timep)
      (fun l hl => by rw [Nat.zero_add]; exact ht (hT rfl) l hl)
    exact ⟨vec, h1, h2⟩
  · have hne : f ≠ .time ∨ V ≠ [] := by
      by_cases h : f = .time
      · exact .inr fun h' => hcase ⟨h, h'⟩
      · exact .inl h
    refine ⟨_, fnCode_eq hne, by simp, fun l hl => ?_⟩
    have hne' : f ≠ .time ∨ treeValL (vs l) (L l) args ≠ [] := by
      refine hne.imp id fun h h' => h ?_
      rw [treeValL_eq, List.map_eq_nil_iff] at h'
      subst h'
      exact List.length_eq_zero_iff.1 hlen
    have hl2 := hV.2 l hl
    simp only at hl2 ⊢
    rw [List.getElem?_map, List.getElem?_range hl, Option.map_some]
    simp only [treeVal]
    rw [appO_ne _ _ _ hne', ← hl2]
    cases hs : allSome (treeValL (vs l) (L l) args) with
    | none => rfl
    | some ys =>
      simp only [Option.bind_some]
      rw [hcode f args ys hf hc]
      obtain ⟨h1, h2⟩ := allSome_get hs
      rw [treeValL_eq, List.length_map] at h1
      refine ⟨h1, fun i n x hn hx => ?_⟩
      have h3 := h2 i x hx
      rw [treeValL_eq, List.getElem?_map, hn] at h3
      simp only [Option.map_some, treeVal, Option.some.injEq] at h3
      rw [← hL l hl n]
      exact h3

theorem treeCode_ok (hcode : CodeSound P) (ht : TimeOk b timep vs T) (hL : ∀ l, l < b → ∀ n, L l (.num n) = n.toK?)
    (e : Expr K) : e.TreeOk P T → ∀ (xs rest : List (List (Option K))),
      List.Forall₂ (fun a x => IsVec b x fun l => L l a) e.leaves xs →
      ∃ w, treeCode b timep e (xs ++ rest) = .ok (w, rest) ∧ IsVec b w fun l => treeVal (vs l) (L l) e := by
  induction e using Expr.ind with
  | fn f args ih =>
    intro hok xs rest hx
    rw [treeOk_fn] at hok
    have hL' : ∀ as : List (Expr K), (∀ a ∈ as, a ∈ args) → ∀ xs rest,
        List.Forall₂ (fun a x => IsVec b x fun l => L l a) (Expr.leavesL as) xs →
        ∃ V, treeCodeL b timep as (xs ++ rest) = .ok (V, rest) ∧ V.length = as.length ∧
          Lanes b V fun l => treeValL (vs l) (L l) as := by
      intro as
      induction as with
      | nil =>
        intro _ xs rest h
        cases h
        exact ⟨[], rfl, rfl, by simp, fun l hl => rfl⟩
      | cons a as iha =>
        intro hm xs rest h
        rw [Expr.leavesL] at h
        obtain ⟨x1, x2, rfl, h1, h2⟩ := forall₂_append_split h
        obtain ⟨w, h3, h4⟩ := ih a (hm a List.mem_cons_self) (hok.2 a (hm a List.mem_cons_self)) x1 (x2 ++ rest) h1
        obtain ⟨V, h5, h6, h7⟩ := iha (fun x hx => hm x (List.mem_cons_of_mem _ hx)) x2 rest h2
        refine ⟨w :: V, ?_, by simp [h6], ?_, fun l hl => ?_⟩
        · rw [treeCodeL, List.append_assoc, h3]
          simp only [Res.bind_ok]
          rw [h5]
          rfl
        · intro vec hv
          rcases List.mem_cons.1 hv with rfl | hv
          · exact h4.1
          · exact h7.1 vec hv
        · have := h7.2 l hl
          simp only at this ⊢
          rw [treeValL, this, laneOf, laneOf, List.map_cons, h4.2 l hl]
          rfl
    obtain ⟨V, h1, h2, h3⟩ := hL' args (fun _ h => h) xs rest hx
    obtain ⟨w, h4, h5⟩ := fnCode_ok hcode ht hL hok.1.1 hok.1.2.1 hok.1.2.2 h2 h3
    refine ⟨w, ?_, h5⟩
    rw [treeCode, h1, Res.bind_ok]
    simp only
    rw [hok.1.2.1, h4]
    rfl
  | num n =>
    intro _ xs rest hx
    cases hx with
    | cons h1 h2 => cases h2; exact ⟨_, rfl, h1⟩
  | var n =>
    intro _ xs rest hx
    cases hx with
    | cons h1 h2 => cases h2; exact ⟨_, rfl, h1⟩
  | par n =>
    intro _ xs rest hx
    cases hx with
    | cons h1 h2 => cases h2; exact ⟨_, rfl, h1⟩

theorem fnCode_congr {f g : Fn K} (h : (CodeInterp.code f : List K → Option K) = CodeInterp.code g)
    (ht : f = .time ↔ g = .time) (xs : List (List (Option K))) : fnCode b timep f xs = fnCode b timep g xs := by
  by_cases hf : f = .time
  · rw [hf, ht.1 hf]
  · rw [fnCode_eq (.inl hf), fnCode_eq (.inl fun h => hf (ht.2 h)), h]

mutual
/-- Trees with the same shape have the same code. -/
theorem treeCode_congr (hP : LlvmSound P) : (e e' : Expr K) → e.TreeOk P T → e'.TreeOk P T → SameShape e e' →
    ∀ xs, treeCode b timep e xs = treeCode b timep e' xs
  | .fn f as, .fn g bs, h, h', hs, xs => by
    rw [treeOk_fn] at h h'
    have hs' : f.llvmName = g.llvmName ∧ SameShapeL as bs := hs
    have h1 := treeCodeL_congr hP as bs h.2 h'.2 hs'.2 xs
    have h2 := hP.code f g h.1.1 h'.1.1 hs'.1
    rw [treeCode, treeCode, h1, h.1.2.1, h'.1.2.1]
    simp only [fnCode_congr h2.1 h2.2]
  | .num n, e', _, _, hs, xs => by cases e' <;> first | rfl | exact hs.elim
  | .var n, e', _, _, hs, xs => by cases e' <;> first | rfl | exact hs.elim
  | .par n, e', _, _, hs, xs => by cases e' <;> first | rfl | exact hs.elim
  | .fn f as, .num n, _, _, hs, _ => hs.elim
  | .fn f as, .var n, _, _, hs, _ => hs.elim
  | .fn f as, .par n, _, _, hs, _ => hs.elim
theorem treeCodeL_congr (hP : LlvmSound P) : (as bs : List (Expr K)) → (∀ a ∈ as, a.TreeOk P T) →
    (∀ a ∈ bs, a.TreeOk P T) → SameShapeL as bs → ∀ xs, treeCodeL b timep as xs = treeCodeL b timep bs xs
  | [], [], _, _, _, _ => rfl
  | a :: as, b' :: bs, h, h', hs, xs => by
    rw [treeCodeL, treeCodeL, treeCode_congr hP a b' (h a List.mem_cons_self) (h' b' List.mem_cons_self) hs.1 xs]
    congr 1
    funext r
    rw [treeCodeL_congr hP as bs (fun x hx => h x (List.mem_cons_of_mem _ hx))
      (fun x hx => h' x (List.mem_cons_of_mem _ hx)) hs.2 r.2]
  | [], _ :: _, _, _, hs, _ => hs.elim
  | _ :: _, [], _, _, hs, _ => hs.elim
end

theorem TreeOk.compositeOk (hP : LlvmSound P) {e : Expr K} (h : e.TreeOk P T) : compositeOk e = true := by
  induction e using Expr.ind with
  | fn f args ih =>
    rw [treeOk_fn] at h
    have h1 := hP.chars f h.1.1
    rw [Sym.compositeOk, Bool.and_eq_true, Bool.and_eq_true, compositeOkL_iff]
    refine ⟨⟨?_, ?_⟩, fun a ha => ih a ha (h.2 a ha)⟩
    · rw [Bool.not_eq_true', List.any_eq_false]
      intro c hc
      have := h1.nameChars c hc
      simp [forbiddenChar, this.1, this.2.1, this.2.2]
    · rw [Bool.not_eq_true', List.any_eq_false]
      intro c hc
      have := h1.chars c hc
      simp [forbiddenChar, this.1, this.2.1, this.2.2.1]
  | _ => rfl

end

end Heyoka.Sym
