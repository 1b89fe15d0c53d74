import Verif.Taylor.DecSys
import Verif.Props.Rewrite

/-!
# Regular expressions and the rewrites before the decomposition

The condition under which the Taylor coefficients along a curve are determined is a condition on every function of
the expressions: it is defined near the current time, and the current point is not a singular one for it. The
rewrites before the decomposition preserve the condition.
-/

set_option linter.unusedSectionVars false

open Filter Topology

namespace Heyoka.Taylor

open Heyoka.Sym

variable {E E' : ℝ → Env ℝ} {t t0 : ℝ} {f : Fn ℝ} {as as' : List (Expr ℝ)}

/-- The expression has a value near `t0` along the curves. -/
def EvDef (E : ℝ → Env ℝ) (t0 : ℝ) (e : Expr ℝ) : Prop := ∀ᶠ t in 𝓝 t0, ∃ x, e.eval (E t) = some x

/-- The numbers of arguments of the functions, and two further restrictions which are established by the rewrites:
numerical exponents, binary products. There are no Taylor derivatives of `kepDE()`. -/
def Shp (expo bin : Bool) : Fn ℝ → List (Expr ℝ) → Prop
  | .sum, as | .sumSq, as | .land, as | .lor, as => as ≠ []
  | .prod _, as => 2 ≤ as.length ∧ (bin = true → as.length = 2)
  | .pow _, as => ∃ x y, as = [x, y] ∧ (expo = true → ∃ m, y = .num m)
  | .numId, as => ∃ m, as = [.num m]
  | .kepDE, _ => False
  | _, _ => True

/-- A function of an expression is regular at `t0`: it is defined near `t0`, and it is smooth there as a function of
its arguments, which may be constant; the base of a power is positive if the exponent is not a number. -/
structure NodeReg (S : Fn ℝ → List (Expr ℝ) → Prop) (E : ℝ → Env ℝ) (t0 : ℝ) (f : Fn ℝ) (as : List (Expr ℝ)) :
    Prop where
  shape : S f as
  defined : EvDef E t0 (.fn f as)
  reg : ((∀ a ∈ as, IsConst a) ∧ ¬isEdge f) ∨ RegAt E t0 f as
  pos : ∀ a b e, f = .pow a → as = [b, e] → e.isNum = false → ∀ᶠ t in 𝓝 t0, 0 < av E b t

/-! ### Transfer to other arguments -/

theorem Shp.map {expo bin : Bool} (h : Shp expo bin f as) {g : Expr ℝ → Expr ℝ} (hg : ∀ m, g (.num m) = .num m) :
    Shp expo bin f (as.map g) := by
  cases f
  case sum => simpa [Shp] using h
  case sumSq => simpa [Shp] using h
  case land => simpa [Shp] using h
  case lor => simpa [Shp] using h
  case prod b => simpa [Shp] using h
  case pow k =>
    obtain ⟨x, y, rfl, h⟩ := h
    refine ⟨g x, g y, rfl, fun he => ?_⟩
    obtain ⟨m, rfl⟩ := h he
    exact ⟨m, hg m⟩
  case numId =>
    obtain ⟨m, rfl⟩ := h
    exact ⟨m, by simp [hg]⟩
  case kepDE => exact h.elim
  all_goals trivial

theorem Shp.shapeOk (h : Shp true true f as) : ShapeOk f as := by
  cases f
  case prod b => exact h.2 rfl
  case pow k =>
    obtain ⟨x, y, rfl, h⟩ := h
    obtain ⟨m, rfl⟩ := h rfl
    exact ⟨x, m, rfl⟩
  all_goals exact h

theorem eventually_list {p : ℝ → Expr ℝ → Prop} (h : ∀ a ∈ as, ∀ᶠ t in 𝓝 t0, p t a) :
    ∀ᶠ t in 𝓝 t0, ∀ a ∈ as, p t a := by
  induction as with
  | nil => simp
  | cons a as ih =>
    filter_upwards [h a List.mem_cons_self, ih fun b hb => h b (List.mem_cons_of_mem _ hb)] with t h1 h2
    intro b hb
    rcases List.mem_cons.1 hb with rfl | hb
    · exact h1
    · exact h2 b hb

theorem eval_fn_congr {v v' : Env ℝ} (ht : v'.time = v.time)
    (h : as'.map (fun a => a.eval v') = as.map fun a => a.eval v) :
    (Expr.fn f as').eval v' = (Expr.fn f as).eval v := by
  rw [← appO_eval, ← appO_eval, appO_env ht, h]

theorem RegAt.map {g : Expr ℝ → Expr ℝ} (hg : ∀ m, g (.num m) = .num m) (hr : RegAt E t0 f as)
    (htime : ∀ t, (E' t).time = (E t).time)
    (he : ∀ᶠ t in 𝓝 t0, ∀ a ∈ as, (g a).eval (E' t) = a.eval (E t)) : RegAt E' t0 f (as.map g) := by
  have hav : ∀ᶠ t in 𝓝 t0, ∀ a ∈ as, av E' (g a) t = av E a t := by
    filter_upwards [he] with t ht a ha
    rw [av, av, ht a ha]
  have h0 := hav.self_of_nhds
  have hfn : av E' (.fn f (as.map g)) t0 = av E (.fn f as) t0 := by
    rw [av, av, eval_fn_congr (htime t0)]
    rw [List.map_map]
    exact List.map_congr_left fun a ha => he.self_of_nhds a ha
  cases f
  case land =>
    filter_upwards [hr, hav] with t h1 h2
    have e1 : ∀ t, (∀ a ∈ as, av E' (g a) t = av E a t) →
        ((∀ a ∈ as.map g, av E' a t ≠ 0) ↔ ∀ a ∈ as, av E a t ≠ 0) := by
      intro t ht
      rw [List.forall_mem_map]
      exact ⟨fun h a ha => by rw [← ht a ha]; exact h a ha, fun h a ha => by rw [ht a ha]; exact h a ha⟩
    rw [e1 t h2, e1 t0 h0]
    exact h1
  case lor =>
    filter_upwards [hr, hav] with t h1 h2
    have e1 : ∀ t, (∀ a ∈ as, av E' (g a) t = av E a t) →
        ((∃ a ∈ as.map g, av E' a t ≠ 0) ↔ ∃ a ∈ as, av E a t ≠ 0) := by
      intro t ht
      constructor
      · rintro ⟨a, ha, h⟩
        obtain ⟨b, hb, rfl⟩ := List.mem_map.1 ha
        exact ⟨b, hb, by rw [← ht b hb]; exact h⟩
      · rintro ⟨a, ha, h⟩
        exact ⟨g a, List.mem_map_of_mem ha, by rw [ht a ha]; exact h⟩
    rw [e1 t h2, e1 t0 h0]
    exact h1
  case kepE =>
    have h1 : av E (.fn .kepE as) t0 ≠ 0 := hr
    show av E' (.fn .kepE (as.map g)) t0 ≠ 0
    rw [hfn]; exact h1
  case kepF =>
    have h1 : av E (.fn .kepF as) t0 ≠ 0 := hr
    show av E' (.fn .kepF (as.map g)) t0 ≠ 0
    rw [hfn]; exact h1
  case pow k =>
    rcases as with _ | ⟨a, _ | ⟨b, _ | ⟨c, as⟩⟩⟩ <;> try trivial
    rcases hr with h | ⟨m, rfl, h⟩
    · exact .inl (by rw [h0 a (by simp)]; exact h)
    · exact .inr ⟨m, hg m, h⟩
  all_goals
    rcases as with _ | ⟨a, _ | ⟨b, _ | ⟨c, _ | ⟨d, as⟩⟩⟩⟩ <;>
    first
    | trivial
    | (simp only [RegAt, List.map_cons, List.map_nil] at hr ⊢
       simp only [List.forall_mem_cons, List.not_mem_nil, false_imp_iff, implies_true, and_true] at h0
       first
       | (rw [h0]; exact hr)
       | (rw [h0.1, h0.2]; exact hr)
       | (filter_upwards [hr, hav] with t h1 h2
          simp only [List.forall_mem_cons, List.not_mem_nil, false_imp_iff, implies_true, and_true] at h2
          first
          | (rw [h0, h2]; exact h1)
          | (rw [h0.1, h2.1]; exact h1)
          | (rw [h0.1, h2.1, h0.2, h2.2]; exact h1)))

theorem NodeReg.map {expo bin : Bool} {g : Expr ℝ → Expr ℝ} (h : NodeReg (Shp expo bin) E t0 f as)
    (hg : ∀ m, g (.num m) = .num m) (hp : ∀ i, g (.par i) = .par i) (htime : ∀ t, (E' t).time = (E t).time)
    (he : ∀ᶠ t in 𝓝 t0, ∀ a ∈ as, (g a).eval (E' t) = a.eval (E t)) :
    NodeReg (Shp expo bin) E' t0 f (as.map g) := by
  refine ⟨h.shape.map hg, ?_, ?_, ?_⟩
  · filter_upwards [h.defined, he] with t h1 h2
    obtain ⟨x, hx⟩ := h1
    refine ⟨x, ?_⟩
    rw [eval_fn_congr (htime t), hx]
    rw [List.map_map]
    exact List.map_congr_left h2
  · rcases h.reg with ⟨h1, h2⟩ | h1
    · refine .inl ⟨fun a ha => ?_, h2⟩
      obtain ⟨b, hb, rfl⟩ := List.mem_map.1 ha
      have := h1 b hb
      cases b <;> first | exact this.elim | (rw [hg]; trivial) | (rw [hp]; trivial)
    · exact .inr (h1.map hg htime he)
  · intro a b e hf has hn
    rcases as with _ | ⟨x, _ | ⟨y, _ | ⟨z, as⟩⟩⟩ <;> simp at has
    obtain ⟨rfl, rfl⟩ := has
    have hy : y.isNum = false := by
      by_contra hc
      obtain ⟨m, rfl⟩ := Expr.isNum_iff.1 (by simpa using hc)
      rw [hg] at hn
      simp [Expr.isNum] at hn
    filter_upwards [h.pos a x y hf rfl hy, he] with t h1 h2
    rw [av, h2 x (by simp)]
    exact h1

/-! ### Regular expressions -/

/-- All the functions of an expression are regular, and the expression has a value. -/
structure TG (S : Fn ℝ → List (Expr ℝ) → Prop) (E : ℝ → Env ℝ) (t0 : ℝ) (e : Expr ℝ) : Prop where
  all : e.AllFns (NodeReg S E t0)
  defd : EvDef E t0 e

section
variable {S : Fn ℝ → List (Expr ℝ) → Prop}

theorem evalL_some_mem {v : Env ℝ} : ∀ {as : List (Expr ℝ)} {xs : List ℝ}, Expr.evalL v as = some xs →
    ∀ a ∈ as, ∃ x, a.eval v = some x
  | [], _, _, a, ha => by cases ha
  | b :: as, xs, h, a, ha => by
    simp only [Expr.evalL_cons, Option.bind_eq_some_iff, Option.map_eq_some_iff] at h
    obtain ⟨x, hx, ys, hys, rfl⟩ := h
    rcases List.mem_cons.1 ha with rfl | ha
    · exact ⟨x, hx⟩
    · exact evalL_some_mem hys a ha

theorem eval_fn_args {v : Env ℝ} {x : ℝ} (h : (Expr.fn f as).eval v = some x) : ∃ xs, Expr.evalL v as = some xs := by
  by_cases hf : f ≠ .time ∨ as ≠ []
  · rw [Expr.eval_fn _ _ _ hf, Option.bind_eq_some_iff] at h
    obtain ⟨xs, h, -⟩ := h
    exact ⟨xs, h⟩
  · push Not at hf
    rw [hf.2]
    exact ⟨[], rfl⟩

theorem EvDef.args (h : EvDef E t0 (.fn f as)) : ∀ a ∈ as, EvDef E t0 a := by
  intro a ha
  filter_upwards [h] with t ht
  obtain ⟨x, hx⟩ := ht
  obtain ⟨xs, hxs⟩ := eval_fn_args hx
  exact evalL_some_mem hxs a ha

theorem evDef_list (h : ∀ a ∈ as, EvDef E t0 a) : ∀ᶠ t in 𝓝 t0, ∃ xs, Expr.evalL (E t) as = some xs := by
  induction as with
  | nil => exact .of_forall fun t => ⟨[], rfl⟩
  | cons a as ih =>
    filter_upwards [h a List.mem_cons_self, ih fun b hb => h b (List.mem_cons_of_mem _ hb)] with t h1 h2
    obtain ⟨x, h1⟩ := h1
    obtain ⟨xs, h2⟩ := h2
    exact ⟨x :: xs, by rw [Expr.evalL_cons, h1, h2]; rfl⟩

theorem TG.fn (h : NodeReg S E t0 f as) (ha : ∀ a ∈ as, TG S E t0 a) : TG S E t0 (.fn f as) :=
  ⟨⟨h, Expr.allFnsL_iff.2 fun a h => (ha a h).all⟩, h.defined⟩

theorem TG.node (h : TG S E t0 (.fn f as)) : NodeReg S E t0 f as := h.all.1

theorem TG.args (h : TG S E t0 (.fn f as)) : ∀ a ∈ as, TG S E t0 a :=
  fun a ha => ⟨Expr.allFnsL_iff.1 h.all.2 a ha, h.defd.args a ha⟩

theorem TG.num {m : Num ℝ} {x : ℝ} (h : m.toK? = some x) : TG S E t0 (.num m) :=
  ⟨trivial, .of_forall fun t => ⟨x, by rw [Expr.eval_num, h]⟩⟩

theorem TG.ofNum {e : Expr ℝ} (hn : e.isNum = true) (h : EvDef E t0 e) : TG S E t0 e := by
  obtain ⟨m, rfl⟩ := Expr.isNum_iff.1 hn
  exact ⟨trivial, h⟩

/-- A function without singular points. -/
theorem TG.simple (hs : S f as) (hr : RegAt E t0 f as) (hp : ∀ a, f ≠ .pow a) (hd : EvDef E t0 (.fn f as))
    (ha : ∀ a ∈ as, TG S E t0 a) : TG S E t0 (.fn f as) :=
  .fn ⟨hs, hd, .inr hr, fun a _ _ h => absurd h (hp a)⟩ ha

end

/-! ### Sums, products, powers -/

theorem sumFinish_cases (as : List (Expr ℝ)) : (as = [] ∧ sumFinish as = .dbl 0) ∨ (sumFinish as ∈ as) ∨
    ∃ bs, sumFinish as = .fn .sum bs ∧ 2 ≤ bs.length ∧ ∀ b ∈ bs, b ∈ as := by
  unfold sumFinish
  split
  · exact .inl ⟨rfl, rfl⟩
  · exact .inr (.inl (by simp))
  · rename_i h1 h2
    refine .inr (.inr ⟨_, rfl, ?_, ?_⟩)
    · rw [(partition_perm as).length_eq]
      rcases as with _ | ⟨a, _ | ⟨b, as⟩⟩
      · exact absurd rfl h1
      · exact absurd rfl (h2 a)
      · simp
    · intro b hb
      exact (partition_perm as).mem_iff.1 hb

theorem prodFinish_cases (as : List (Expr ℝ)) : (as = [] ∧ prodFinish as = .dbl 1) ∨ (prodFinish as ∈ as) ∨
    ∃ n bs, prodFinish as = .fn (.prod n) bs ∧ 2 ≤ bs.length ∧ ∀ b ∈ bs, b ∈ as := by
  unfold prodFinish
  split
  · exact .inl ⟨rfl, rfl⟩
  · exact .inr (.inl (by simp))
  · rename_i h1 h2
    refine .inr (.inr ⟨_, _, rfl, ?_, ?_⟩)
    · rw [(partition_perm as).length_eq]
      rcases as with _ | ⟨a, _ | ⟨b, as⟩⟩
      · exact absurd rfl h1
      · exact absurd rfl (h2 a)
      · simp
    · intro b hb
      exact (partition_perm as).mem_iff.1 hb

section
variable {expo : Bool}

theorem TG.sumFinish (h : ∀ a ∈ as, TG (Shp expo false) E t0 a) : TG (Shp expo false) E t0 (sumFinish as) := by
  have hd : EvDef E t0 (Sym.sumFinish as) := by
    filter_upwards [evDef_list fun a ha => (h a ha).defd] with t ht
    obtain ⟨xs, hxs⟩ := ht
    exact ⟨xs.sum, by rw [eval_sumFinish, hxs]; rfl⟩
  rcases sumFinish_cases as with ⟨-, h1⟩ | h1 | ⟨bs, h1, h2, h3⟩
  · rw [h1] at hd ⊢
    exact .ofNum rfl hd
  · exact h _ h1
  · rw [h1] at hd ⊢
    refine .simple ?_ trivial (by simp) hd fun b hb => h b (h3 b hb)
    show bs ≠ []
    rintro rfl
    simp at h2

theorem TG.prodFinish (h : ∀ a ∈ as, TG (Shp expo false) E t0 a) : TG (Shp expo false) E t0 (prodFinish as) := by
  have hd : EvDef E t0 (Sym.prodFinish as) := by
    filter_upwards [evDef_list fun a ha => (h a ha).defd] with t ht
    obtain ⟨xs, hxs⟩ := ht
    exact ⟨xs.prod, by rw [eval_prodFinish, hxs]; rfl⟩
  rcases prodFinish_cases as with ⟨-, h1⟩ | h1 | ⟨n, bs, h1, h2, h3⟩
  · rw [h1] at hd ⊢
    exact .ofNum rfl hd
  · exact h _ h1
  · rw [h1] at hd ⊢
    exact .simple ⟨h2, by simp⟩ trivial (by simp) hd fun b hb => h b (h3 b hb)

theorem numVals_of_defd (h : ∀ a ∈ as, EvDef E t0 a) : ∃ ys, numVals (as.filterMap (·.num?)) = some ys := by
  obtain ⟨xs, hxs⟩ := (evDef_list h).self_of_nhds
  have := evalL_split_sum (v := E t0) as
  rw [hxs, Option.map_some] at this
  symm at this
  rw [Option.bind_eq_some_iff] at this
  obtain ⟨zs, -, this⟩ := this
  rw [Option.map_eq_some_iff] at this
  obtain ⟨ys, hys, -⟩ := this
  exact ⟨ys, hys⟩

theorem TG.sumE (h : ∀ a ∈ as, TG (Shp expo false) E t0 a) : TG (Shp expo false) E t0 (sumE as) := by
  have hd : EvDef E t0 (Sym.sumE as) := by
    filter_upwards [evDef_list fun a ha => (h a ha).defd] with t ht
    obtain ⟨xs, hxs⟩ := ht
    exact ⟨xs.sum, by rw [eval_sumE, hxs]; rfl⟩
  have hnn : ∀ a ∈ as.filter (!·.isNum), TG (Shp expo false) E t0 a := fun a ha => h a (List.mem_filter.1 ha).1
  obtain ⟨ys, hys⟩ := numVals_of_defd fun a ha => (h a ha).defd
  unfold Sym.sumE at hd ⊢
  cases hn : as.filterMap (·.num?) with
  | nil => exact .sumFinish hnn
  | cons n ns =>
    rw [hn] at hys hd
    dsimp only at hd ⊢
    have hv : (ns.foldl Num.add n).toK? = some ys.sum := by
      rw [foldl_add_toK?]
      simp only [numVals, Option.bind_eq_some_iff, Option.map_eq_some_iff] at hys
      obtain ⟨x, hx, zs, hzs, rfl⟩ := hys
      rw [hx, hzs]
      simp
    split_ifs at hd ⊢
    · exact .ofNum rfl hd
    · exact .sumFinish hnn
    · refine .sumFinish fun a ha => ?_
      rcases List.mem_append.1 ha with ha | ha
      · exact hnn a ha
      · rw [List.mem_singleton.1 ha]; exact .num hv

theorem TG.prodE (h : ∀ a ∈ as, TG (Shp expo false) E t0 a) : TG (Shp expo false) E t0 (prodE as) := by
  have hd : EvDef E t0 (Sym.prodE as) := by
    filter_upwards [evDef_list fun a ha => (h a ha).defd] with t ht
    obtain ⟨xs, hxs⟩ := ht
    exact ⟨xs.prod, eval_prodE hxs⟩
  have hnn : ∀ a ∈ as.filter (!·.isNum), TG (Shp expo false) E t0 a := fun a ha => h a (List.mem_filter.1 ha).1
  obtain ⟨ys, hys⟩ := numVals_of_defd fun a ha => (h a ha).defd
  unfold Sym.prodE at hd ⊢
  cases hn : as.filterMap (·.num?) with
  | nil => exact .prodFinish hnn
  | cons n ns =>
    rw [hn] at hys hd
    dsimp only at hd ⊢
    have hv : (ns.foldl Num.mul n).toK? = some ys.prod := by
      simp only [numVals, Option.bind_eq_some_iff, Option.map_eq_some_iff] at hys
      obtain ⟨x, hx, zs, hzs, rfl⟩ := hys
      rw [foldl_mul_toK? hx hzs]; simp
    split_ifs at hd ⊢
    · exact .ofNum rfl hd
    · exact .prodFinish hnn
    · exact .ofNum rfl hd
    · refine .prodFinish fun a ha => ?_
      rcases List.mem_append.1 ha with ha | ha
      · exact hnn a ha
      · rw [List.mem_singleton.1 ha]; exact .num hv

theorem TG.mulE {a b : Expr ℝ} (ha : TG (Shp expo false) E t0 a) (hb : TG (Shp expo false) E t0 b) :
    TG (Shp expo false) E t0 (mulE a b) := by
  have hp : TG (Shp expo false) E t0 (Sym.prodE [a, b]) := .prodE fun x hx => by
    simp only [List.mem_cons, List.not_mem_nil, or_false] at hx
    rcases hx with rfl | rfl
    · exact ha
    · exact hb
  unfold Sym.mulE
  split
  · obtain ⟨x, hx⟩ := ha.defd.self_of_nhds
    obtain ⟨y, hy⟩ := hb.defd.self_of_nhds
    rw [Expr.eval_num] at hx hy
    exact .num (Num.toK?_mul hx hy)
  · exact hp

/-- A base with exponent one. -/
theorem TG.powE_one {b : Expr ℝ} {n : Num ℝ} (hb : TG (Shp expo false) E t0 b) (hn : n.isNegOne = true) :
    TG (Shp expo false) E t0 (powE b (.num n.neg)) := by
  have h1 : n.neg.toK? = some 1 := by
    rw [Num.toK?_neg, Num.isNegOne_iff.1 hn]; simp
  have h2 : n.neg.isZero = false := by
    by_contra hc
    rw [Num.isZero_iff.1 (by simpa using hc)] at h1
    simp at h1
  have hd : EvDef E t0 (powE b (.num n.neg)) := by
    filter_upwards [hb.defd] with t ht
    obtain ⟨x, hx⟩ := ht
    refine ⟨_, eval_powE hx (by rw [Expr.eval_num]; exact h1) ?_⟩
    rcases lt_trichotomy 0 x with h | h | h
    · exact .inl h
    · exact .inr (.inl ⟨h.symm, zero_le_one⟩)
    · exact .inr (.inr ⟨h, 1, by simp⟩)
  cases b with
  | num m => exact .ofNum rfl hd
  | _ => simpa [powE, h2, Num.isOne_iff.2 h1] using hb

end

/-! ### Splitting -/

theorem groupArgs_all2 {α : Type} {mk : List α → α} {Q : α → Prop} {split : Nat}
    (hs : 2 ≤ split) (hmk : ∀ as : List α, 2 ≤ as.length → as.length ≤ split → (∀ a ∈ as, Q a) → Q (mk as))
    (tmp as : List α) (hl : tmp.length < split) (ht : ∀ a ∈ tmp, Q a) (ha : ∀ a ∈ as, Q a) :
    ∀ a ∈ groupArgs mk split tmp as, Q a := by
  induction as generalizing tmp with
  | nil =>
    match tmp with
    | [] => simp [groupArgs]
    | [a] => simpa [groupArgs] using ht
    | a :: b :: tmp => simpa [groupArgs] using hmk _ (by simp) hl.le ht
  | cons a as ih =>
    have ht' : ∀ x ∈ tmp ++ [a], Q x := by
      intro x hx
      rcases List.mem_append.1 hx with hx | hx
      · exact ht x hx
      · rw [List.mem_singleton.1 hx]; exact ha a List.mem_cons_self
    have ha' : ∀ x ∈ as, Q x := fun x hx => ha x (List.mem_cons_of_mem _ hx)
    rw [groupArgs]
    split_ifs with hc
    · intro x hx
      rcases List.mem_cons.1 hx with rfl | hx
      · exact hmk _ (by omega) hc.le ht'
      · exact ih [] (by simp; omega) (by simp) ha' x hx
    · exact ih _ (by simp at hc ⊢; omega) ht' ha'

theorem groupArgs_length_two {α : Type} (mk : List α → α) {split : Nat} (hs : 2 ≤ split) (as : List α) :
    ∀ tmp : List α, tmp.length < split → split < tmp.length + as.length →
      2 ≤ (groupArgs mk split tmp as).length := by
  induction as with
  | nil => intro tmp h1 h2; simp at h2; omega
  | cons a as ih =>
    intro tmp h1 h2
    rw [groupArgs]
    split_ifs with hc
    · rcases as with _ | ⟨b, as⟩
      · simp at hc h2; omega
      · have : groupArgs mk split [] (b :: as) ≠ [] := by
          have aux : ∀ (as tmp : List α), tmp ≠ [] → groupArgs mk split tmp as ≠ [] := by
            intro as
            induction as with
            | nil => intro tmp h; rcases tmp with _ | ⟨x, _ | ⟨y, tmp⟩⟩ <;> simp_all [groupArgs]
            | cons c as ih =>
              intro tmp h
              rw [groupArgs]
              split_ifs
              · simp
              · exact ih _ (by simp)
          rw [groupArgs]
          split_ifs
          · simp
          · exact aux _ _ (by simp)
        have := List.length_pos_iff.2 this
        simp only [List.length_cons]
        omega
    · exact ih _ (by simp at hc ⊢; omega) (by simp at h2 ⊢; omega)

theorem udfSplit_all2 {α : Type} {mk : List α → α} {Q : α → Prop} {split : Nat}
    (hs : 2 ≤ split) (hmk : ∀ as : List α, 2 ≤ as.length → as.length ≤ split → (∀ a ∈ as, Q a) → Q (mk as))
    (as : List α) (hl : 2 ≤ as.length) (ha : ∀ a ∈ as, Q a) : Q (udfSplit mk split hs as) := by
  induction hn : as.length using Nat.strong_induction_on generalizing as with
  | _ n ih =>
    subst hn
    rw [udfSplit]
    split_ifs with h
    · exact hmk _ hl h ha
    · refine ih _ ?_ _ ?_ (groupArgs_all2 hs hmk [] as (by simp; omega) (by simp) ha) rfl
      · have := groupArgs_length_lt mk split [] as (by simp; omega) (by simp; omega)
        simp at this
        omega
      · exact groupArgs_length_two mk hs as [] (by simp; omega) (by simp; omega)

/-! ### The passes -/

/-- A transformation of the functions of an expression which preserves regularity. -/
structure PassOk (S S' : Fn ℝ → List (Expr ℝ) → Prop) (E : ℝ → Env ℝ) (t0 : ℝ) (T : Expr ℝ → Expr ℝ) : Prop where
  reg : ∀ f as, NodeReg S E t0 f as → (∀ a ∈ as, TG S' E t0 a) → TG S' E t0 (T (.fn f as))
  val : ∀ f as, NodeReg S E t0 f as → ∀ᶠ t in 𝓝 t0, ∀ x, (Expr.fn f as).eval (E t) = some x →
    (T (.fn f as)).eval (E t) = some x

theorem PassOk.mapNodes {expo bin : Bool} {S' : Fn ℝ → List (Expr ℝ) → Prop} {T : Expr ℝ → Expr ℝ}
    (hT : PassOk (Shp expo bin) S' E t0 T) {e : Expr ℝ} (he : TG (Shp expo bin) E t0 e) :
    TG S' E t0 (e.mapNodes id T) ∧ ∀ᶠ t in 𝓝 t0, (e.mapNodes id T).eval (E t) = e.eval (E t) := by
  induction e using Expr.ind with
  | num n => exact ⟨⟨trivial, he.defd⟩, .of_forall fun t => rfl⟩
  | var s => exact ⟨⟨trivial, he.defd⟩, .of_forall fun t => rfl⟩
  | par i => exact ⟨⟨trivial, he.defd⟩, .of_forall fun t => rfl⟩
  | fn f args ih =>
    rw [Expr.mapNodes, Expr.mapNodesL_eq_map]
    have ih' := fun a ha => ih a ha (he.args a ha)
    have hev := eventually_list fun a ha => (ih' a ha).2
    have hn := he.node.map (g := Expr.mapNodes id T) (fun m => rfl) (fun m => rfl) (fun t => rfl) hev
    refine ⟨hT.reg _ _ hn fun a ha => ?_, ?_⟩
    · obtain ⟨b, hb, rfl⟩ := List.mem_map.1 ha
      exact (ih' b hb).1
    · filter_upwards [hT.val _ _ hn, he.defd, hev] with t h1 h2 h3
      obtain ⟨x, hx⟩ := h2
      rw [hx]
      refine h1 x ?_
      rw [eval_fn_congr (v := E t) (v' := E t) rfl, hx]
      rw [List.map_map]
      exact List.map_congr_left h3

theorem NodeReg.mono {S S' : Fn ℝ → List (Expr ℝ) → Prop} (h : NodeReg S E t0 f as) (hs : S' f as) :
    NodeReg S' E t0 f as := ⟨hs, h.defined, h.reg, h.pos⟩

theorem EvDef.congr {e e' : Expr ℝ} (h : EvDef E t0 e) (hv : ∀ᶠ t in 𝓝 t0, ∀ x, e.eval (E t) = some x →
    e'.eval (E t) = some x) : EvDef E t0 e' := by
  filter_upwards [h, hv] with t h1 h2
  obtain ⟨x, hx⟩ := h1
  exact ⟨x, h2 x hx⟩

theorem powToExplog_pass : PassOk (Shp false false) (Shp true false) E t0 powToExplog := by
  have hval : ∀ f as, NodeReg (Shp false false) E t0 f as → ∀ᶠ t in 𝓝 t0, ∀ x, (Expr.fn f as).eval (E t) = some x →
      (powToExplog (.fn f as)).eval (E t) = some x := by
    intro f as h
    unfold powToExplog
    split
    · rename_i a b e heq
      cases heq
      split_ifs with hn
      · exact .of_forall fun t x hx => hx
      · filter_upwards [h.pos a b e rfl rfl (by simpa using hn)] with t hp x hx
        rw [eval_explog (by simpa using hn)]
        obtain ⟨y, z, hy, hz, -, rfl⟩ := eval_pow_some.1 hx
        rw [av, hy] at hp
        have hp : 0 < y := hp
        rw [hy, hz]
        simp [hp, Real.rpow_def_of_pos hp, mul_comm]
    · exact .of_forall fun t x hx => hx
  refine ⟨fun f as h ha => ?_, hval⟩
  have hd := h.defined.congr (hval f as h)
  by_cases hp : ∃ a b e, f = .pow a ∧ as = [b, e]
  · obtain ⟨a, b, e, rfl, rfl⟩ := hp
    rw [powToExplog] at hd ⊢
    split_ifs at hd ⊢ with hn
    · refine .fn (h.mono ?_) ha
      obtain ⟨m, rfl⟩ := Expr.isNum_iff.1 hn
      exact ⟨b, _, rfl, fun _ => ⟨m, rfl⟩⟩
    · have hb := ha b (by simp)
      have hlog : TG (Shp true false) E t0 (.fn .log [b]) := by
        refine .simple trivial trivial (by simp) ?_ fun x hx => by
          rw [List.mem_singleton] at hx; subst hx; exact hb
        filter_upwards [h.pos a b e rfl rfl (by simpa using hn), hb.defd] with t hp hb
        obtain ⟨y, hy⟩ := hb
        rw [av, hy] at hp
        have hp : 0 < y := hp
        refine ⟨Real.log y, ?_⟩
        rw [Expr.eval_fn _ _ _ (by simp)]
        simp [hy, app_def, realApp, hp]
      have hm := TG.mulE (ha e (by simp)) hlog
      generalize mulE e (.fn .log [b]) = w at hm hd
      cases w with
      | num m => exact .ofNum rfl hd
      | _ =>
        refine .simple trivial trivial (by simp) hd fun x hx => ?_
        rw [List.mem_singleton] at hx; subst hx; exact hm
  · have hs : Shp true false f as := by
      have := h.shape
      cases f
      case pow a =>
        obtain ⟨x, y, rfl, -⟩ := this
        exact absurd ⟨a, x, y, rfl, rfl⟩ hp
      all_goals exact this
    have : powToExplog (.fn f as) = .fn f as := by
      unfold powToExplog
      split
      · rename_i a b e heq; cases heq; exact absurd ⟨a, b, e, rfl, rfl⟩ hp
      · rfl
    rw [this]
    exact .fn (h.mono hs) ha

theorem sumToSub_pass : PassOk (Shp true false) (Shp true false) E t0 sumToSub := by
  refine ⟨fun f as h ha => ?_, fun f as h => .of_forall fun t x hx => sumToSub_keeps _ x hx⟩
  have hd := h.defined.congr (.of_forall fun t x hx => sumToSub_keeps _ x hx)
  by_cases hf : f = .sum
  · subst hf
    rw [sumToSub] at hd ⊢
    dsimp only at hd ⊢
    have hneg : ∀ a ∈ (as.filterMap negatedProd).map Sym.prodE, TG (Shp true false) E t0 a := by
      intro a hx
      obtain ⟨bs, hbs, rfl⟩ := List.mem_map.1 hx
      obtain ⟨x, hx, hnp⟩ := List.mem_filterMap.1 hbs
      refine .prodE fun b hb => ?_
      have hxg := ha x hx
      unfold negatedProd at hnp
      split at hnp
      · split_ifs at hnp
        simp only [Option.some.injEq] at hnp
        subst hnp
        exact hxg.args b (List.mem_cons_of_mem _ hb)
      · cases hnp
    have hst := TG.sumE hneg
    split_ifs at hd ⊢
    · exact .fn h ha
    · refine .prodE fun b hb => ?_
      simp only [List.mem_cons, List.not_mem_nil, or_false] at hb
      rcases hb with rfl | rfl
      · exact .ofNum rfl (.of_forall fun t => ⟨-1, by simp⟩)
      · exact hst
    · refine .simple trivial trivial (by simp) hd fun b hb => ?_
      simp only [List.mem_cons, List.not_mem_nil, or_false] at hb
      rcases hb with rfl | rfl
      · exact .sumE fun a hx => ha a (List.mem_filter.1 hx).1
      · exact hst
  · have : sumToSub (.fn f as) = .fn f as := by
      unfold sumToSub
      split
      · rename_i heq; cases heq; exact absurd rfl hf
      · rfl
    rw [this]
    exact .fn h ha

theorem sumSplit_pass (split : Nat) (hs : 2 ≤ split) :
    PassOk (Shp true false) (Shp true false) E t0 (sumSplit split hs) := by
  refine ⟨fun f as h ha => ?_, fun f as h => .of_forall fun t x hx => sumSplit_keeps _ _ _ x hx⟩
  unfold sumSplit
  split
  · rename_i bs heq
    cases heq
    by_cases hl : as.length ≤ split
    · rw [udfSplit, dif_pos hl]; exact .fn h ha
    · refine udfSplit_all2 hs (fun bs h1 h2 h3 => ?_) as (by omega) ha
      refine .simple ?_ trivial (by simp) ?_ h3
      · show bs ≠ []
        rintro rfl
        simp at h1
      · filter_upwards [evDef_list fun b hb => (h3 b hb).defd] with t ht
        obtain ⟨xs, hxs⟩ := ht
        exact ⟨xs.sum, by rw [eval_sum, hxs]; rfl⟩
  · exact .fn h ha

theorem sumToSumSq_pass : PassOk (Shp true false) (Shp true false) E t0 sumToSumSq := by
  refine ⟨fun f as h ha => ?_, fun f as h => .of_forall fun t x hx => sumToSumSq_keeps _ x hx⟩
  have hd := h.defined.congr (.of_forall fun t x hx => sumToSumSq_keeps _ x hx)
  by_cases hf : f = .sum
  · subst hf
    rw [sumToSumSq] at hd ⊢
    cases hb : allSquares as with
    | none => exact .fn h ha
    | some bs =>
      rw [hb] at hd
      have key : ∀ (as bs : List (Expr ℝ)), allSquares as = some bs → (∀ a ∈ as, TG (Shp true false) E t0 a) →
          bs.length = as.length ∧ ∀ b ∈ bs, TG (Shp true false) E t0 b := by
        intro as
        induction as with
        | nil => intro bs h1 _; simp only [allSquares, Option.some.injEq] at h1; subst h1; simp
        | cons e es ih =>
          intro bs h1 h2
          simp only [allSquares, Option.bind_eq_some_iff, Option.map_eq_some_iff] at h1
          obtain ⟨b, hb, bs', hbs, rfl⟩ := h1
          have := ih bs' hbs fun a ha => h2 a (List.mem_cons_of_mem _ ha)
          refine ⟨by simp [this.1], fun a ha => ?_⟩
          rcases List.mem_cons.1 ha with rfl | ha
          · unfold isSquare at hb
            split at hb
            · split_ifs at hb
              simp only [Option.some.injEq] at hb
              subst hb
              exact (h2 _ List.mem_cons_self).args _ (by simp)
            · cases hb
          · exact this.2 a ha
      obtain ⟨k1, k2⟩ := key as bs hb ha
      refine .simple ?_ trivial (by simp) hd k2
      have : as ≠ [] := h.shape
      show bs ≠ []
      rintro rfl
      exact this (List.length_eq_zero_iff.1 k1.symm)
  · have : sumToSumSq (.fn f as) = .fn f as := by
      unfold sumToSumSq
      split
      · rename_i heq; cases heq; exact absurd rfl hf
      · rfl
    rw [this]
    exact .fn h ha

theorem prodToDiv_pass : PassOk (Shp true false) (Shp true false) E t0 (prodToDiv divFactorTaylor) := by
  refine ⟨fun f as h ha => ?_, fun f as h => .of_forall fun t x hx => prodToDiv_keeps divFactorTaylor_part _ x hx⟩
  have hd := h.defined.congr (.of_forall fun t x hx => prodToDiv_keeps divFactorTaylor_part _ x hx)
  by_cases hf : ∃ n, f = .prod n
  · obtain ⟨n, rfl⟩ := hf
    rw [prodToDiv] at hd ⊢
    split_ifs at hd ⊢
    · exact .fn h ha
    · refine .simple trivial trivial (by simp) hd fun b hb => ?_
      simp only [List.mem_cons, List.not_mem_nil, or_false] at hb
      rcases hb with rfl | rfl
      · exact .prodE fun a hx => ha a (List.mem_filter.1 hx).1
      · refine .prodE fun a hx => ?_
        obtain ⟨p, hp, rfl⟩ := List.mem_map.1 hx
        obtain ⟨x, hx, hxp⟩ := List.mem_filterMap.1 hp
        have hxg := ha x hx
        unfold divFactorTaylor at hxp
        split at hxp
        · split_ifs at hxp with hn
          simp only [Option.some.injEq] at hxp
          subst hxp
          exact .powE_one (hxg.args _ (by simp)) hn
        · cases hxp
  · have : prodToDiv divFactorTaylor (.fn f as) = .fn f as := by
      unfold prodToDiv
      split
      · rename_i heq; cases heq; exact absurd ⟨_, rfl⟩ hf
      · rfl
    rw [this]
    exact .fn h ha

theorem prodSplit_pass : PassOk (Shp true false) (Shp true true) E t0 (prodSplit 2 (by decide)) := by
  refine ⟨fun f as h ha => ?_, fun f as h => .of_forall fun t x hx => prodSplit_keeps _ _ _ x hx⟩
  by_cases hf : ∃ n, f = .prod n
  · obtain ⟨n, rfl⟩ := hf
    rw [prodSplit]
    have hl : 2 ≤ as.length := h.shape.1
    split_ifs with hc
    · exact .fn (h.mono ⟨hl, fun _ => by omega⟩) ha
    · refine udfSplit_all2 (by decide) (fun bs h1 h2 h3 => ?_) as hl ha
      refine .simple ⟨h1, fun _ => by omega⟩ trivial (by simp) ?_ h3
      filter_upwards [evDef_list fun b hb => (h3 b hb).defd] with t ht
      obtain ⟨xs, hxs⟩ := ht
      exact ⟨xs.prod, by rw [eval_prod, hxs]; rfl⟩
  · have : prodSplit 2 (by decide) (.fn f as) = .fn f as := by
      unfold prodSplit
      split
      · rename_i heq; cases heq; exact absurd ⟨_, rfl⟩ hf
      · rfl
    rw [this]
    have hs : Shp true true f as := by
      have := h.shape
      cases f
      case prod => exact absurd ⟨_, rfl⟩ hf
      all_goals exact this
    exact .fn (h.mono hs) ha

/-- The rewrites before the decomposition keep regular expressions regular, and their values. -/
theorem rewritesTaylor_reg {e : Expr ℝ} (he : TG (Shp false false) E t0 e) :
    TG (Shp true true) E t0 (rewritesTaylor e) ∧ ∀ᶠ t in 𝓝 t0, (rewritesTaylor e).eval (E t) = e.eval (E t) := by
  obtain ⟨a1, b1⟩ := powToExplog_pass.mapNodes he
  obtain ⟨a2, b2⟩ := sumToSub_pass.mapNodes a1
  obtain ⟨a3, b3⟩ := (sumSplit_pass 8 (by decide)).mapNodes a2
  obtain ⟨a4, b4⟩ := sumToSumSq_pass.mapNodes a3
  obtain ⟨a5, b5⟩ := prodToDiv_pass.mapNodes a4
  obtain ⟨a6, b6⟩ := prodSplit_pass.mapNodes a5
  refine ⟨a6, ?_⟩
  filter_upwards [b1, b2, b3, b4, b5, b6] with t c1 c2 c3 c4 c5 c6
  rw [← c1, ← c2, ← c3, ← c4, ← c5, ← c6]
  rfl

end Heyoka.Taylor
