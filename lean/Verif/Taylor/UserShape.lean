import Verif.Taylor.DecReg
import Verif.Taylor.WfDec

/-!
# The shape of the expressions of the user and the rewrites before the decomposition

The functions of an expression built with the library have the right numbers of arguments. The rewrites before the
decomposition preserve this, all products become binary ones, and all exponents numbers.
-/

set_option linter.unusedSectionVars false

namespace Heyoka.Taylor

open Heyoka.Sym

variable {L : Fn ℝ → Prop} {f : Fn ℝ} {as : List (Expr ℝ)} {expo bin : Bool}

/-- The numbers of arguments of the functions. `expo`: the exponents are numbers; `bin`: the products are binary. -/
def ArgShape (expo bin : Bool) (L : Fn ℝ → Prop) : Fn ℝ → List (Expr ℝ) → Prop
  | .prod _, as => 2 ≤ as.length ∧ (bin = true → as.length = 2)
  | .pow _, as => ∃ x y, as = [x, y] ∧ (expo = true → ∃ m, y = .num m)
  | f, as => TShape L f as

/-- After the transformation `g`, the eccentricity of `kepE()` is not the number one, nor are the two components of that of
`kepF()`. -/
def KepOk (g : Expr ℝ → Expr ℝ) : Fn ℝ → List (Expr ℝ) → Prop
  | .kepE, as => ∀ m, (as.map g)[0]? = some (.num m) → m.isOne = false
  | .kepF, as => ∀ m, ((as.map g)[0]? = some (.num m) ∨ (as.map g)[1]? = some (.num m)) → m.isOne = false
  | _, _ => True

/-- The shape of the expressions of the user: the numbers of arguments of the functions are right, the Taylor derivatives of
the functions are implemented, and the eccentricities of the Kepler functions are not the number one, as written or after
the rewrites. -/
def UserShape (L : Fn ℝ → Prop) (f : Fn ℝ) (as : List (Expr ℝ)) : Prop :=
  ArgShape false false L f as ∧ KepOk rewritesTaylor f as

theorem ArgShape.map (h : ArgShape expo bin L f as) {g : Expr ℝ → Expr ℝ} (hg : ∀ m, g (.num m) = .num m) :
    ArgShape expo bin L f (as.map g) := by
  have key : TShape L f as → TShape L f (as.map g) := fun h => h.map hg
  cases f
  case prod b => simpa [ArgShape] using h
  case pow k =>
    obtain ⟨x, y, rfl, h⟩ := h
    refine ⟨g x, g y, rfl, fun he => ?_⟩
    obtain ⟨m, rfl⟩ := h he
    exact ⟨m, hg m⟩
  all_goals exact key h

theorem KepOk.comp {g h : Expr ℝ → Expr ℝ} (hk : KepOk (g ∘ h) f as) : KepOk g f (as.map h) := by
  cases f
  case kepE => intro m hm; rw [List.map_map] at hm; exact hk m hm
  case kepF => intro m hm; rw [List.map_map] at hm; exact hk m hm
  all_goals trivial

/-- The condition on the functions of an expression. -/
def USh (expo bin : Bool) (L : Fn ℝ → Prop) (g : Expr ℝ → Expr ℝ) (f : Fn ℝ) (as : List (Expr ℝ)) : Prop :=
  ArgShape expo bin L f as ∧ KepOk g f as

/-- A transformation of the functions which preserves the condition. -/
def PassSh (e b e' b' : Bool) (T : Expr ℝ → Expr ℝ) : Prop :=
  ∀ (L : Fn ℝ → Prop) g f as, USh e b L g f as → (∀ a ∈ as, a.AllFns (USh e' b' L g)) →
    (T (.fn f as)).AllFns (USh e' b' L g)

theorem PassSh.mapNodes {e b e' b' : Bool} {T : Expr ℝ → Expr ℝ} (hT : PassSh e b e' b' T) {g : Expr ℝ → Expr ℝ}
    {x : Expr ℝ} (hx : x.AllFns (USh e b L (g ∘ Expr.mapNodes id T))) : (x.mapNodes id T).AllFns (USh e' b' L g) := by
  induction x using Expr.ind with
  | num n => trivial
  | var s => trivial
  | par i => trivial
  | fn f args ih =>
    rw [Expr.mapNodes, Expr.mapNodesL_eq_map]
    refine hT L g _ _ ⟨hx.1.1.map fun m => rfl, hx.1.2.comp⟩ fun a ha => ?_
    obtain ⟨c, hc, rfl⟩ := List.mem_map.1 ha
    exact ih c hc (Expr.allFnsL_iff.1 hx.2 c hc)

section
variable {g : Expr ℝ → Expr ℝ}

theorem ush_fn (h : USh expo bin L g f as) (ha : ∀ a ∈ as, a.AllFns (USh expo bin L g)) :
    (Expr.fn f as).AllFns (USh expo bin L g) := ⟨h, Expr.allFnsL_iff.2 ha⟩

theorem sumFinish_ush (h : ∀ a ∈ as, a.AllFns (USh expo false L g)) : (sumFinish as).AllFns (USh expo false L g) := by
  rcases sumFinish_cases as with ⟨-, h1⟩ | h1 | ⟨bs, h1, h2, h3⟩
  · rw [h1]; trivial
  · exact h _ h1
  · rw [h1]
    refine ush_fn ⟨?_, trivial⟩ fun b hb => h b (h3 b hb)
    show bs ≠ []
    rintro rfl
    simp at h2

theorem prodFinish_ush (h : ∀ a ∈ as, a.AllFns (USh expo false L g)) : (prodFinish as).AllFns (USh expo false L g) := by
  rcases prodFinish_cases as with ⟨-, h1⟩ | h1 | ⟨n, bs, h1, h2, h3⟩
  · rw [h1]; trivial
  · exact h _ h1
  · rw [h1]
    exact ush_fn ⟨⟨h2, by simp⟩, trivial⟩ fun b hb => h b (h3 b hb)

theorem sumE_ush (h : ∀ a ∈ as, a.AllFns (USh expo false L g)) : (sumE as).AllFns (USh expo false L g) := by
  have hnn : ∀ a ∈ as.filter (!·.isNum), a.AllFns (USh expo false L g) := fun a ha => h a (List.mem_filter.1 ha).1
  unfold sumE
  dsimp only
  split
  · exact sumFinish_ush hnn
  · split_ifs
    · trivial
    · exact sumFinish_ush hnn
    · refine sumFinish_ush fun a ha => ?_
      rcases List.mem_append.1 ha with ha | ha
      · exact hnn a ha
      · rw [List.mem_singleton.1 ha]; trivial

theorem prodE_ush (h : ∀ a ∈ as, a.AllFns (USh expo false L g)) : (prodE as).AllFns (USh expo false L g) := by
  have hnn : ∀ a ∈ as.filter (!·.isNum), a.AllFns (USh expo false L g) := fun a ha => h a (List.mem_filter.1 ha).1
  unfold prodE
  dsimp only
  split
  · exact prodFinish_ush hnn
  · split_ifs
    · trivial
    · exact prodFinish_ush hnn
    · trivial
    · refine prodFinish_ush fun a ha => ?_
      rcases List.mem_append.1 ha with ha | ha
      · exact hnn a ha
      · rw [List.mem_singleton.1 ha]; trivial

theorem mulE_ush {a b : Expr ℝ} (ha : a.AllFns (USh expo false L g)) (hb : b.AllFns (USh expo false L g)) :
    (mulE a b).AllFns (USh expo false L g) := by
  unfold mulE
  split
  · trivial
  · refine prodE_ush fun x hx => ?_
    simp only [List.mem_cons, List.not_mem_nil, or_false] at hx
    rcases hx with rfl | rfl
    exacts [ha, hb]

theorem powE_ush {b : Expr ℝ} {n : Num ℝ} (hb : b.AllFns (USh expo bin L g)) :
    (powE b (.num n)).AllFns (USh expo bin L g) := by
  have key : (mkPow b (.num n)).AllFns (USh expo bin L g) := by
    refine ush_fn ⟨⟨b, .num n, rfl, fun _ => ⟨n, rfl⟩⟩, trivial⟩ fun x hx => ?_
    simp only [List.mem_cons, List.not_mem_nil, or_false] at hx
    rcases hx with rfl | rfl
    · exact hb
    · trivial
  cases b with
  | num x => trivial
  | _ =>
    simp only [powE]
    split_ifs
    · trivial
    · exact hb
    · exact key

end

theorem powToExplog_sh : PassSh false false true false powToExplog := by
  intro L g f as h ha
  by_cases hp : ∃ a b e, f = .pow a ∧ as = [b, e]
  · obtain ⟨a, b, e, rfl, rfl⟩ := hp
    rw [powToExplog]
    split_ifs with hn
    · obtain ⟨m, rfl⟩ := Expr.isNum_iff.1 hn
      exact ush_fn ⟨⟨b, _, rfl, fun _ => ⟨m, rfl⟩⟩, trivial⟩ ha
    · have hlog : (Expr.fn .log [b]).AllFns (USh true false L g) := by
        refine ush_fn ⟨rfl, trivial⟩ fun x hx => ?_
        rw [List.mem_singleton] at hx
        subst hx
        exact ha x (by simp)
      have hm := mulE_ush (ha e (by simp)) hlog
      generalize mulE e (.fn .log [b]) = w at hm
      cases w with
      | num m => trivial
      | _ =>
        refine ush_fn ⟨rfl, trivial⟩ fun x hx => ?_
        rw [List.mem_singleton] at hx
        subst hx
        exact hm
  · have hs : ArgShape true false L f as := by
      have := h.1
      cases f
      case pow a =>
        obtain ⟨x, y, rfl, -⟩ := this
        exact absurd ⟨a, x, y, rfl, rfl⟩ hp
      all_goals exact this
    have : powToExplog (.fn f as) = .fn f as := by
      unfold powToExplog
      split
      · rename_i a b e heq; cases heq; exact absurd ⟨a, b, e, rfl, rfl⟩ hp
      · rfl
    rw [this]
    exact ush_fn ⟨hs, h.2⟩ ha

theorem sumToSub_sh : PassSh true false true false sumToSub := by
  intro L g f as h ha
  by_cases hf : f = .sum
  · subst hf
    rw [sumToSub]
    dsimp only
    have hneg : ∀ a ∈ (as.filterMap negatedProd).map Sym.prodE, a.AllFns (USh true false L g) := by
      intro a hx
      obtain ⟨bs, hbs, rfl⟩ := List.mem_map.1 hx
      obtain ⟨x, hx, hnp⟩ := List.mem_filterMap.1 hbs
      refine prodE_ush fun b hb => ?_
      have hxg := ha x hx
      unfold negatedProd at hnp
      split at hnp
      · split_ifs at hnp
        simp only [Option.some.injEq] at hnp
        subst hnp
        exact Expr.allFnsL_iff.1 hxg.2 b (List.mem_cons_of_mem _ hb)
      · cases hnp
    have hst := sumE_ush hneg
    split_ifs
    · exact ush_fn h ha
    · refine prodE_ush fun b hb => ?_
      simp only [List.mem_cons, List.not_mem_nil, or_false] at hb
      rcases hb with rfl | rfl
      · trivial
      · exact hst
    · refine ush_fn ⟨rfl, trivial⟩ fun b hb => ?_
      simp only [List.mem_cons, List.not_mem_nil, or_false] at hb
      rcases hb with rfl | rfl
      · exact sumE_ush fun a hx => ha a (List.mem_filter.1 hx).1
      · exact hst
  · have : sumToSub (.fn f as) = .fn f as := by
      unfold sumToSub
      split
      · rename_i heq; cases heq; exact absurd rfl hf
      · rfl
    rw [this]
    exact ush_fn h ha

theorem sumSplit_sh (split : Nat) (hs : 2 ≤ split) : PassSh true false true false (sumSplit split hs) := by
  intro L g f as h ha
  unfold sumSplit
  split
  · rename_i bs heq
    cases heq
    by_cases hl : as.length ≤ split
    · rw [udfSplit, dif_pos hl]; exact ush_fn h ha
    · refine udfSplit_all2 hs (fun bs h1 h2 h3 => ?_) as (by omega) ha
      refine ush_fn ⟨?_, trivial⟩ h3
      show bs ≠ []
      rintro rfl
      simp at h1
  · exact ush_fn h ha

theorem sumToSumSq_sh : PassSh true false true false sumToSumSq := by
  intro L g f as h ha
  by_cases hf : f = .sum
  · subst hf
    rw [sumToSumSq]
    cases hb : allSquares as with
    | none => exact ush_fn h ha
    | some bs =>
      have key : ∀ (as bs : List (Expr ℝ)), allSquares as = some bs → (∀ a ∈ as, a.AllFns (USh true false L g)) →
          bs.length = as.length ∧ ∀ b ∈ bs, b.AllFns (USh true false L g) := by
        intro as
        induction as with
        | nil => intro bs h1 _; simp only [allSquares, Option.some.injEq] at h1; subst h1; simp
        | cons e es ih =>
          intro bs h1 h2
          simp only [allSquares, Option.bind_eq_some_iff, Option.map_eq_some_iff] at h1
          obtain ⟨b, hb, bs', hbs, rfl⟩ := h1
          have := ih bs' hbs fun a ha => h2 a (List.mem_cons_of_mem _ ha)
          refine ⟨by simp [this.1], fun a ha => ?_⟩
          rcases List.mem_cons.1 ha with rfl | ha
          · have he := h2 e List.mem_cons_self
            unfold isSquare at hb
            split at hb
            · split_ifs at hb
              simp only [Option.some.injEq] at hb
              subst hb
              exact Expr.allFnsL_iff.1 he.2 _ (by simp)
            · cases hb
          · exact this.2 a ha
      obtain ⟨k1, k2⟩ := key as bs hb ha
      refine ush_fn ⟨?_, trivial⟩ k2
      have : as ≠ [] := h.1
      show bs ≠ []
      rintro rfl
      exact this (List.length_eq_zero_iff.1 k1.symm)
  · have : sumToSumSq (.fn f as) = .fn f as := by
      unfold sumToSumSq
      split
      · rename_i heq; cases heq; exact absurd rfl hf
      · rfl
    rw [this]
    exact ush_fn h ha

theorem prodToDiv_sh : PassSh true false true false (prodToDiv divFactorTaylor) := by
  intro L g f as h ha
  by_cases hf : ∃ n, f = .prod n
  · obtain ⟨n, rfl⟩ := hf
    rw [prodToDiv]
    split_ifs
    · exact ush_fn h ha
    · refine ush_fn ⟨rfl, trivial⟩ fun b hb => ?_
      simp only [List.mem_cons, List.not_mem_nil, or_false] at hb
      rcases hb with rfl | rfl
      · exact prodE_ush fun a hx => ha a (List.mem_filter.1 hx).1
      · refine prodE_ush fun a hx => ?_
        obtain ⟨p, hp, rfl⟩ := List.mem_map.1 hx
        obtain ⟨x, hx, hxp⟩ := List.mem_filterMap.1 hp
        have hxg := ha x hx
        unfold divFactorTaylor at hxp
        split at hxp
        · split_ifs at hxp with hn
          simp only [Option.some.injEq] at hxp
          subst hxp
          exact powE_ush (Expr.allFnsL_iff.1 hxg.2 _ (by simp))
        · cases hxp
  · have : prodToDiv divFactorTaylor (.fn f as) = .fn f as := by
      unfold prodToDiv
      split
      · rename_i heq; cases heq; exact absurd ⟨_, rfl⟩ hf
      · rfl
    rw [this]
    exact ush_fn h ha

theorem prodSplit_sh : PassSh true false true true (prodSplit 2 (by decide)) := by
  intro L g f as h ha
  by_cases hf : ∃ n, f = .prod n
  · obtain ⟨n, rfl⟩ := hf
    rw [prodSplit]
    have hl : 2 ≤ as.length := h.1.1
    split_ifs with hc
    · exact ush_fn ⟨⟨hl, fun _ => by omega⟩, trivial⟩ ha
    · refine udfSplit_all2 (by decide) (fun bs h1 h2 h3 => ?_) as hl ha
      exact ush_fn ⟨⟨h1, fun _ => by omega⟩, trivial⟩ h3
  · have : prodSplit 2 (by decide) (.fn f as) = .fn f as := by
      unfold prodSplit
      split
      · rename_i heq; cases heq; exact absurd ⟨_, rfl⟩ hf
      · rfl
    rw [this]
    have hs : ArgShape true true L f as := by
      have := h.1
      cases f
      case prod => exact absurd ⟨_, rfl⟩ hf
      all_goals exact this
    exact ush_fn ⟨hs, h.2⟩ ha

theorem AllFns_mono {P Q : Fn ℝ → List (Expr ℝ) → Prop} (h : ∀ f as, P f as → Q f as) {e : Expr ℝ} (he : e.AllFns P) :
    e.AllFns Q := by
  induction e using Expr.ind with
  | num n => trivial
  | var s => trivial
  | par i => trivial
  | fn f args ih =>
    exact ⟨h _ _ he.1, Expr.allFnsL_iff.2 fun a ha => ih a ha (Expr.allFnsL_iff.1 he.2 a ha)⟩

theorem USh.inShape (h : USh true true L id f as) : InShape L f as := by
  obtain ⟨h, hk⟩ := h
  refine ⟨?_, ?_⟩
  · cases f
    case prod => exact h.2 rfl
    case pow =>
      obtain ⟨x, y, rfl, h⟩ := h
      obtain ⟨m, rfl⟩ := h rfl
      exact ⟨x, m, rfl⟩
    all_goals exact h
  · cases f
    case kepE => intro m hm; exact hk m (by simpa using hm)
    case kepF => intro m hm; exact hk m (by simpa using hm)
    all_goals trivial

/-- The rewrites before the decomposition bring the expressions of the user into the shape required by the decomposition. -/
theorem rewritesTaylor_shape {e : Expr ℝ} (he : e.AllFns (UserShape L)) : (rewritesTaylor e).AllFns (InShape L) := by
  have he : e.AllFns (USh false false L ((((((id ∘ Expr.mapNodes id (prodSplit 2 (by decide))) ∘
      Expr.mapNodes id (prodToDiv divFactorTaylor)) ∘ Expr.mapNodes id sumToSumSq) ∘
      Expr.mapNodes id (sumSplit 8 (by decide))) ∘ Expr.mapNodes id sumToSub) ∘ Expr.mapNodes id powToExplog)) := he
  have h := prodSplit_sh.mapNodes (prodToDiv_sh.mapNodes (sumToSumSq_sh.mapNodes ((sumSplit_sh 8 (by decide)).mapNodes
    (sumToSub_sh.mapNodes (powToExplog_sh.mapNodes he)))))
  exact AllFns_mono (fun _ _ => USh.inShape) h

/-- What is assumed of an expression of the user: the variables are state variables, the indices of the parameters are 32-bit
integers (as in `include/heyoka/param.hpp`), and the functions have the right numbers of arguments. -/
structure UserExpr (L : Fn ℝ → Prop) (names : List String) (e : Expr ℝ) : Prop where
  leaves : e.Good (fun _ => True) (· ∈ names) (· < 2 ^ 32)
  shape : e.AllFns (UserShape L)

theorem UserExpr.sysShape {names : List String} {e : Expr ℝ} (h : UserExpr L names e) : SysShape L names e :=
  ⟨rewritesTaylor_good ⟨trivial, fun _ => trivial, fun _ => trivial, trivial, trivial, trivial, trivial, trivial, trivial,
    trivial⟩ h.leaves, rewritesTaylor_shape h.shape⟩

end Heyoka.Taylor
