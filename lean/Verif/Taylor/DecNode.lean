import Verif.Taylor.DecSys

/-!
# The decompositions of the functions are right

For every function the appended elements, with their hidden dependencies, satisfy the specification.
-/

set_option linter.unusedSectionVars false

open Filter Topology

namespace Heyoka.Taylor

open Heyoka.Sym

variable {par : ℕ → ℝ} {F F' : ℕ → ℝ → ℝ} {t t0 : ℝ} {i n n' neq : ℕ} {P : Fn ℝ → Prop} {X : ℕ → ℝ → ℝ}
variable {dc : TDc ℝ} {as as' : List (Expr ℝ)}

theorem regular_of {f : Fn ℝ} {idx : ℕ} (hr : RegAt (envF par X) t0 f as) (hs : ShapeOk f as)
    (hst : List.Forall₂ (Stands (TDef par neq X t0) dc) as' as)
    (hfn : ∀ᶠ t in 𝓝 t0, (as'.map (targU par)).map (fun a => argFn F a t) = as.map fun a => av (envF par X) a t)
    (hidx : ∀ᶠ t in 𝓝 t0, (Expr.fn f as).eval (envF par X t) = some (F idx t)) :
    Regular F t0 idx f (as'.map (targU par)) := by
  have hlen := hst.length_eq
  have h0 := hfn.self_of_nhds
  have hi0 := hidx.self_of_nhds
  have hnum : ∀ {x : Expr ℝ} {m : Num ℝ}, Stands (TDef par neq X t0) dc x (.num m) → x = .num m := by
    intro x m hx
    simpa [Stands, Expr.isFn] using hx
  cases f
  case land =>
    filter_upwards [hr, hfn] with t h1 h2
    have e1 : ∀ t, (as'.map (targU par)).map (fun a => argFn F a t) = as.map (fun a => av (envF par X) a t) →
        ((∀ a ∈ as'.map (targU par), argFn F a t ≠ 0) ↔ ∀ a ∈ as, av (envF par X) a t ≠ 0) := by
      intro t ht
      rw [← List.forall_mem_map (f := fun a => argFn F a t) (P := fun x => x ≠ 0), ht, List.forall_mem_map]
    rw [e1 t h2, e1 t0 h0]
    exact h1
  case lor =>
    filter_upwards [hr, hfn] with t h1 h2
    have e1 : ∀ t, (as'.map (targU par)).map (fun a => argFn F a t) = as.map (fun a => av (envF par X) a t) →
        ((∃ a ∈ as'.map (targU par), argFn F a t ≠ 0) ↔ ∃ a ∈ as, av (envF par X) a t ≠ 0) := by
      intro t ht
      have : ∀ {α : Type} (l : List α) (g : α → ℝ), (∃ a ∈ l, g a ≠ 0) ↔ ∃ x ∈ l.map g, x ≠ 0 := by
        intro α l g; simp
      rw [this _ (fun a => argFn F a t), ht, ← this]
    rw [e1 t h2, e1 t0 h0]
    exact h1
  case kepE =>
    have : F idx t0 ≠ 0 := by
      have h1 : av (envF par X) (.fn .kepE as) t0 ≠ 0 := hr
      rw [av, hi0] at h1
      exact h1
    rcases as' with _ | ⟨a, as'⟩ <;> exact this
  case kepF =>
    have : F idx t0 ≠ 0 := by
      have h1 : av (envF par X) (.fn .kepF as) t0 ≠ 0 := hr
      rw [av, hi0] at h1
      exact h1
    rcases as' with _ | ⟨a, as'⟩ <;> exact this
  case pow k =>
    obtain ⟨x, m, rfl⟩ := hs
    rcases hst with _ | ⟨h1, _ | ⟨h2, _ | _⟩⟩
    rw [hnum h2] at h0 ⊢
    simp only [List.map_cons, List.map_nil, List.cons.injEq] at h0
    rcases hr with h | ⟨m', hm, h⟩
    · exact .inl (by rw [h0.1]; exact h)
    · cases hm
      exact .inr ⟨rfl, by rw [h]; rfl⟩
  all_goals
    rcases as with _ | ⟨a, _ | ⟨b, _ | ⟨c, _ | ⟨d, as⟩⟩⟩⟩ <;>
    rcases as' with _ | ⟨a', _ | ⟨b', _ | ⟨c', _ | ⟨d', as'⟩⟩⟩⟩ <;>
    first
    | (simp only [List.length_nil, List.length_cons] at hlen; omega)
    | trivial
    | (simp only [RegAt, Regular, List.map_cons, List.map_nil] at hr ⊢
       simp only [List.map_cons, List.map_nil, List.cons.injEq, and_true] at h0
       first
       | (rw [h0]; exact hr)
       | (rw [h0.1, h0.2]; exact hr)
       | (filter_upwards [hr, hfn] with t h1 h2
          simp only [List.map_cons, List.map_nil, List.cons.injEq, and_true] at h2
          first
          | (rw [h0, h2]; exact h1)
          | (rw [h0.1, h2.1]; exact h1)
          | (rw [h0.1, h2.1, h0.2, h2.2]; exact h1)))

/-! ### Elements -/

theorem TElemOk.of_fn {f : Fn ℝ} {es : List (Expr ℝ)} {ds : List ℕ} (hP : P f) (ha : ∀ a ∈ es, ArgOk i a)
    (hev : ∀ᶠ t in 𝓝 t0, (Expr.fn f es).eval (envF par F t) = some (F i t)) (hsup : Supported f (es.map (targU par)))
    (hd : DepsOk F t0 i f (es.map (targU par)) ds)
    (hr : (∀ a ∈ es.map (targU par), a.isCst) ∨ Regular F t0 i f (es.map (targU par))) (hds : ∀ d ∈ ds, d < n) :
    TElemOk P F t0 par n i (.fn f es, ds) := by
  refine ⟨hds, .inl ⟨f, es, rfl, hP, ha, ?_, hsup, hd, hr⟩⟩
  filter_upwards [hev] with t ht
  rw [nodeVal_targU ha, ht]

theorem TElemOk.of_num {m : Num ℝ} {ds : List ℕ}
    (hev : ∀ᶠ t in 𝓝 t0, (Expr.num m).eval (envF par F t) = some (F i t)) (hds : ∀ d ∈ ds, d < n) :
    TElemOk P F t0 par n i (.num m, ds) := by
  refine ⟨hds, .inr ⟨m, F i t0, rfl, ?_, ?_⟩⟩
  · have := hev.self_of_nhds
    rwa [Expr.eval_num] at this
  · have h0 := hev.self_of_nhds
    rw [Expr.eval_num] at h0
    filter_upwards [hev] with t ht
    rw [Expr.eval_num, h0] at ht
    exact (Option.some.inj ht).symm

theorem telem_unary {g : Fn ℝ} {a : Expr ℝ} {ds : List ℕ} (hP : P g) (ha : ArgOk i a)
    (hev : ∀ᶠ t in 𝓝 t0, (unaryE g a).eval (envF par F t) = some (F i t)) (hsup : Supported g [targU par a])
    (hd : DepsOk F t0 i g [targU par a] ds) (hr : Regular F t0 i g [targU par a]) (hds : ∀ d ∈ ds, d < n) :
    TElemOk P F t0 par n i (unaryE g a, ds) := by
  cases a with
  | num m => exact .of_num hev hds
  | fn f as => exact absurd ha (by simp [ArgOk])
  | _ => exact .of_fn hP (List.forall_mem_singleton.2 ha) hev hsup hd (.inr hr) hds

theorem telem_pow {a : Expr ℝ} {x : ℝ} (hP : ∀ k, P (.pow k)) (ha : ArgOk i a) (hx : x ≠ 0) (hx' : x ≠ 1)
    (hev : ∀ᶠ t in 𝓝 t0, (powE a (.dbl x)).eval (envF par F t) = some (F i t))
    (hr : argFn F (targU par a) t0 ≠ 0 ∨ x = 2) :
    TElemOk P F t0 par n i (powE a (.dbl x), []) := by
  have hz : (Num.dbl x).isZero = false := by simp [Num.isZero, Num.dbl, FVal.isZero, hx]
  have ho : (Num.dbl x).isOne = false := by simp [Num.isOne, Num.dbl, FVal.isOne, hx']
  have key : ∀ a : Expr ℝ, a.isNum = false → powE a (.dbl x) = mkPow a (.dbl x) := by
    intro a ha
    cases a with
    | num m => simp [Expr.isNum] at ha
    | _ => simp [powE, Expr.dbl, hz, ho]
  have hreg : ∀ k, Regular F t0 i (.pow k) [targU par a, targU par (.dbl x)] := by
    intro k
    rcases hr with h | rfl
    · exact .inl h
    · exact .inr ⟨rfl, rfl⟩
  cases a with
  | num m => exact .of_num hev (by simp)
  | fn f as => exact absurd ha (by simp [ArgOk])
  | var s =>
    rw [key _ rfl] at hev ⊢
    exact .of_fn (hP _) (by simpa [Expr.dbl, ArgOk] using ha) hev ⟨_, _, _, rfl⟩ rfl (.inr (hreg _)) (by simp)
  | par j =>
    rw [key _ rfl] at hev ⊢
    exact .of_fn (hP _) (by simpa [Expr.dbl, ArgOk] using ha) hev ⟨_, _, _, rfl⟩ rfl (.inr (hreg _)) (by simp)

theorem mulE_leaf {e : Expr ℝ} {s : String} (ha : ArgOk i e) (h1 : ∀ m, e = .num m → m.isOne = false) :
    (∃ m, e = .num m ∧ mulE e (.var s) = .num m) ∨ mulE e (.var s) = mkProd [e, .var s] := by
  cases e with
  | num m =>
    have := h1 m rfl
    by_cases hz : m.isZero = true
    · exact .inl ⟨m, rfl, by simp [mulE, prodE, Expr.isNum, Expr.num?, this, hz]⟩
    · exact .inr (by simp [mulE, prodE, Expr.isNum, Expr.num?, this, hz, prodFinish])
  | fn f as => exact absurd ha (by simp [ArgOk])
  | _ => exact .inr (by simp [mulE, prodE, Expr.isNum, Expr.num?, prodFinish])

theorem telem_mul {e : Expr ℝ} {j : ℕ} (hP : ∀ b, P (.prod b)) (ha : ArgOk i e) (hj : j < i)
    (h1 : ∀ m, e = .num m → m.isOne = false)
    (hev : ∀ᶠ t in 𝓝 t0, (mulE e (uvar j)).eval (envF par F t) = some (F i t)) :
    TElemOk P F t0 par n i (mulE e (uvar j), []) := by
  unfold uvar at hev ⊢
  rcases mulE_leaf (s := uname j) ha h1 with ⟨m, -, h⟩ | h
  · rw [h] at hev ⊢
    exact .of_num hev (by simp)
  · rw [h] at hev ⊢
    refine .of_fn (hP _) ?_ hev rfl rfl (.inr trivial) (by simp)
    intro a hm
    rcases List.mem_cons.1 hm with rfl | hm
    · exact ha
    · rw [List.mem_singleton.1 hm]; exact ⟨j, hj, rfl⟩

theorem negE_uvar (j : ℕ) : negE (uvar j : Expr ℝ) = mkProd [.dbl (-1), uvar j] := by
  have h1 : ((-1 : ℝ) = 1) = False := by norm_num
  simp [negE, uvar, prodE, Expr.isNum, Expr.num?, Expr.dbl, Num.isOne, Num.isZero, FVal.isOne, FVal.isZero, Num.dbl,
    prodFinish, h1]

theorem addE_uvar (j : ℕ) : addE (.dbl 1) (uvar j : Expr ℝ) = .fn .sum [.dbl 1, uvar j] := by
  simp [addE, uvar, sumE, Expr.isNum, Expr.num?, Expr.dbl, Num.isZero, FVal.isZero, Num.dbl, sumFinish]

theorem subE_uvar (j : ℕ) : subE (uvar j : Expr ℝ) (.dbl 1) = .fn .sum [.dbl (-1), uvar j] := by
  simp [subE, negE, addE, uvar, sumE, Expr.isNum, Expr.num?, Expr.dbl, Num.isZero, FVal.isZero, Num.dbl, sumFinish,
    Num.neg, FVal.neg]

/-! ### The shapes -/

theorem shape_unary {g : Fn ℝ} {a : Expr ℝ} (ha : ArgOk i a) : Shape i (unaryE g a) := by
  cases a with
  | num m => trivial
  | fn f as => exact absurd ha (by simp [ArgOk])
  | _ => exact List.forall_mem_singleton.2 ha

theorem shape_pow {a : Expr ℝ} {x : ℝ} (ha : ArgOk i a) (hx' : x ≠ 1) : Shape i (powE a (.dbl x)) := by
  have ho : (Num.dbl x).isOne = false := by simp [Num.isOne, Num.dbl, FVal.isOne, hx']
  cases a with
  | num m => trivial
  | fn f as => exact absurd ha (by simp [ArgOk])
  | _ =>
    simp only [powE, Expr.dbl, ho, Bool.false_eq_true, if_false]
    split_ifs
    · trivial
    · intro a hm
      rcases List.mem_cons.1 hm with rfl | hm
      · exact ha
      · rw [List.mem_singleton.1 hm]; trivial

theorem argOk_uvar {j : ℕ} (h : j < i) : ArgOk i (uvar j : Expr ℝ) := ⟨j, h, rfl⟩

theorem shape_mul {e : Expr ℝ} {j : ℕ} (ha : ArgOk i e) (hj : j < i) (h1 : ∀ m, e = .num m → m.isOne = false) :
    Shape i (mulE e (uvar j)) := by
  unfold uvar
  rcases mulE_leaf (s := uname j) ha h1 with ⟨m, -, h⟩ | h
  · rw [h]; trivial
  · rw [h]
    intro a hm
    rcases List.mem_cons.1 hm with rfl | hm
    · exact ha
    · rw [List.mem_singleton.1 hm]; exact ⟨j, hj, rfl⟩

/-! ### The facts on the arguments of a function -/

/-- The functions occurring as hidden dependencies. -/
structure HidClosed (P : Fn ℝ → Prop) : Prop where
  sum : P .sum
  prod : ∀ b, P (.prod b)
  pow : ∀ k, P (.pow k)
  sub : P .sub
  sumSq : P .sumSq
  exp : P .exp
  sin : ∀ b, P (.sin b)
  cos : ∀ b, P (.cos b)
  sinh : P .sinh
  cosh : P .cosh

/-- What is known of the function `f`, element `idx`, with arguments `as'`. -/
structure Facts (par : ℕ → ℝ) (t0 : ℝ) (F : ℕ → ℝ → ℝ) (idx : ℕ) (f : Fn ℝ) (as' : List (Expr ℝ)) : Prop where
  val : ∀ᶠ t in 𝓝 t0, (Expr.fn f as').eval (envF par F t) = some (F idx t)
  arg : ∀ a ∈ as', ∀ᶠ t in 𝓝 t0, a.eval (envF par F t) = some (argFn F (targU par a) t)
  sup : Supported f (as'.map (targU par))
  reg : ((∀ a ∈ as'.map (targU par), a.isCst) ∧ ¬isEdge f) ∨ Regular F t0 idx f (as'.map (targU par))

theorem Facts.reg' {idx : ℕ} {f : Fn ℝ} (h : Facts par t0 F idx f as') :
    (∀ a ∈ as'.map (targU par), a.isCst) ∨ Regular F t0 idx f (as'.map (targU par)) := h.reg.imp And.left id

theorem Facts.main {idx : ℕ} {f : Fn ℝ} {ds : List ℕ} (h : Facts par t0 F idx f as') (hP : P f)
    (ha : ∀ a ∈ as', ArgOk idx a) (hd : DepsOk F t0 idx f (as'.map (targU par)) ds) (hds : ∀ d ∈ ds, d < n) :
    TElemOk P F t0 par n idx (.fn f as', ds) :=
  .of_fn hP ha h.val h.sup hd h.reg' hds

theorem argOk_mono {a : Expr ℝ} (h : ArgOk i a) (hn : i ≤ n) : ArgOk n a := by
  cases a with
  | var s =>
    obtain ⟨j, hj, rfl⟩ := h
    exact ⟨j, by omega, rfl⟩
  | fn f as => exact absurd h (by simp [ArgOk])
  | _ => trivial

theorem allSome_map_some_id {xs : List (Option ℝ)} {ys : List ℝ} (h : allSome xs = some ys) : xs = ys.map some := by
  induction xs generalizing ys with
  | nil => simp only [allSome, Option.some.injEq] at h; subst h; rfl
  | cons x xs ih =>
    cases x with
    | none => simp [allSome] at h
    | some x =>
      cases hq : allSome xs with
      | none => simp [allSome, hq] at h
      | some zs =>
        simp only [allSome, hq, Option.map_some, Option.bind_some, Option.some.injEq] at h
        subst h
        rw [ih hq]; rfl

variable [FmtName ℝ]

/-- The arguments of a function with a value have values. -/
theorem eval_args {f : Fn ℝ} {v : Env ℝ} {y : ℝ} (h : (Expr.fn f as').eval v = some y) :
    (f = .time ∧ as' = []) ∨ ∃ xs, as'.map (fun a => a.eval v) = xs.map some ∧ realApp f xs = some y := by
  rw [← appO_eval] at h
  by_cases hc : f = .time ∧ as' = []
  · exact .inl hc
  · refine .inr ?_
    rw [appO_eq] at h
    · cases hq : allSome (as'.map fun a => a.eval v) with
      | none => rw [hq] at h; cases h
      | some xs =>
        rw [hq] at h
        exact ⟨xs, allSome_map_some_id hq, h⟩
    · by_cases hf : f = .time
      · refine .inr fun hn => hc ⟨hf, by simpa using hn⟩
      · exact .inl hf

theorem eval_args_mem {f : Fn ℝ} {v : Env ℝ} {y : ℝ} (h : (Expr.fn f as').eval v = some y) {a : Expr ℝ}
    (ha : a ∈ as') : ∃ x, a.eval v = some x := by
  rcases eval_args h with ⟨-, rfl⟩ | ⟨xs, h1, -⟩
  · cases ha
  · have : a.eval v ∈ xs.map some := h1 ▸ List.mem_map_of_mem (f := fun a => a.eval v) ha
    obtain ⟨x, -, hx⟩ := List.mem_map.1 this
    exact ⟨x, hx.symm⟩

theorem facts_of (hl : neq ≤ dc.length) {f : Fn ℝ} (hg : NodeGood P par neq X t0 f as)
    (hst : List.Forall₂ (Stands (TDef par neq X t0) dc) as' as) (hF : Fits par neq X F dc) {idx : ℕ}
    (hidx : F idx = fun t => ((Expr.fn f as').eval (envF par F t)).getD 0) :
    Facts par t0 F idx f as' ∧ ∀ᶠ t in 𝓝 t0, (Expr.fn f as).eval (envF par X t) = some (F idx t) := by
  have h1 : ∀ᶠ t in 𝓝 t0, (Expr.fn f as').eval (envF par F t) = (Expr.fn f as).eval (envF par X t) := by
    filter_upwards [tstands_eval hl hst hg.leaves hF] with t ht
    rw [← appO_eval, ← appO_eval, ht, appO_env (v := envF par F t) (v' := envF par X t) rfl]
  have h2 : ∀ᶠ t in 𝓝 t0, (Expr.fn f as').eval (envF par F t) = some (F idx t) := by
    filter_upwards [h1, hg.defined] with t h3 ⟨x, h4⟩
    have : F idx t = ((Expr.fn f as').eval (envF par F t)).getD 0 := by rw [hidx]
    rw [this, h3, h4]; rfl
  have h3 : ∀ᶠ t in 𝓝 t0, (Expr.fn f as).eval (envF par X t) = some (F idx t) := by
    filter_upwards [h1, h2] with t h3 h4
    rw [← h3, h4]
  refine ⟨⟨h2, ?_, stands_shape hst hg.shape, ?_⟩, h3⟩
  · intro a ha
    filter_upwards [h2] with t ht
    obtain ⟨x, hx⟩ := eval_args_mem ht ha
    rw [argFn_targU (tstands_argOk hl hst hg.leaves a ha), hx]
    rfl
  · rcases hg.reg with ⟨h4, h5⟩ | h4
    · exact .inl ⟨stands_const hst h4, h5⟩
    · exact .inr (regular_of h4 hg.shape hst (tstands_fn hl hst hg.leaves hF) h3)

theorem ok_of (hneq : 0 < neq) (hI : TInv P par neq X t0 dc) {f : Fn ℝ} (hg : NodeGood P par neq X t0 f as)
    (hst : List.Forall₂ (Stands (TDef par neq X t0) dc) as' as) {k : ℕ} {d : TDc ℝ} {ds : List ℕ}
    (hcd : customDec dc.length f as' = .ok (k, d)) (hk : d[k]? = some (.fn f as', ds))
    (hs : ∀ (j : ℕ) (e : TElem ℝ), d[j]? = some e → Shape (dc.length + j) e.1)
    (he : ∀ F, Fits par neq X F (dc ++ d) → Facts par t0 F (dc.length + k) f as' →
      ∀ (j : ℕ) (e : TElem ℝ), d[j]? = some e → TElemOk P F t0 par (dc ++ d).length (dc.length + j) e) :
    ∃ i d, taylorFdc (.fn f as') dc = .ok (i, dc ++ d) ∧ TInv P par neq X t0 (dc ++ d) ∧
      TDef par neq X t0 (dc ++ d) i (.fn f as) := by
  have hl := hI.len
  have hkd := (List.getElem?_eq_some_iff.1 hk).1
  have hfacts : ∀ F, Fits par neq X F (dc ++ d) → Facts par t0 F (dc.length + k) f as' ∧
      ∀ᶠ t in 𝓝 t0, (Expr.fn f as).eval (envF par X t) = some (F (dc.length + k) t) := fun F hF =>
    facts_of hl hg hst hF.prefix (hF.new hl hk)
  refine ⟨dc.length + k, d, ?_, hI.append hs fun F hF => he F hF (hfacts F hF).1, by omega, by simp; omega,
    fun F hF => (hfacts F hF).2⟩
  rw [taylorFdc, hcd, Res.bind_ok]
  simp only []
  rw [if_neg (by simp only [List.length_append]; omega)]

/-- The value of an element. -/
theorem fits_val {e : Expr ℝ} {v : ℝ → ℝ} (hf : F i = fun t => (e.eval (envF par F t)).getD 0)
    (hv : ∀ᶠ t in 𝓝 t0, e.eval (envF par F t) = some (v t)) :
    F i =ᶠ[𝓝 t0] v ∧ ∀ᶠ t in 𝓝 t0, e.eval (envF par F t) = some (F i t) := by
  have h1 : F i =ᶠ[𝓝 t0] v := by
    filter_upwards [hv] with t ht
    have : F i t = (e.eval (envF par F t)).getD 0 := by rw [hf]
    rw [this, ht]; rfl
  refine ⟨h1, ?_⟩
  filter_upwards [hv, h1] with t h2 h3
  rw [h2, h3]

theorem eval_unary {g : Fn ℝ} {G : ℝ → ℝ} (hg : ∀ x, realApp g [x] = some (G x)) (ht : g ≠ .time) {a : Expr ℝ}
    {A : ℝ → ℝ} (ha : ∀ᶠ t in 𝓝 t0, a.eval (envF par F t) = some (A t)) :
    ∀ᶠ t in 𝓝 t0, (unaryE g a).eval (envF par F t) = some (G (A t)) := by
  have hd : ∀ id ix, g ≠ .dfun id ix := by
    rintro id ix rfl
    cases hg 0
  filter_upwards [ha] with t h
  rw [eval_unaryE ht a hd, h, Option.bind_some, hg]

theorem eval_pow2 {a : Expr ℝ} {A : ℝ → ℝ} (ha : ∀ᶠ t in 𝓝 t0, a.eval (envF par F t) = some (A t)) :
    ∀ᶠ t in 𝓝 t0, (powE a (.dbl 2)).eval (envF par F t) = some (A t ^ 2) := by
  filter_upwards [ha] with t h
  rw [eval_powE h (by simp) (y := 2), Real.rpow_two]
  rcases lt_trichotomy (A t) 0 with h1 | h1 | h1
  · exact .inr (.inr ⟨h1, 2, by norm_num⟩)
  · exact .inr (.inl ⟨h1, by norm_num⟩)
  · exact .inl h1

theorem eval_uvar (j : ℕ) : ∀ᶠ t in 𝓝 t0, (uvar j : Expr ℝ).eval (envF par F t) = some (F j t) :=
  .of_forall fun t => by simp [uvar, envF]

@[simp] theorem targU_uvar (j : ℕ) : targU par (uvar j) = .u j := by simp [targU, uvar]

/-- A function with a value has the right number of arguments. -/
theorem Facts.args1 {idx : ℕ} {f : Fn ℝ} (h : Facts par t0 F idx f as')
    (hf : ∀ xs y, realApp f xs = some y → ∃ x, xs = [x]) (ht : f ≠ .time) : ∃ a, as' = [a] := by
  rcases eval_args h.val.self_of_nhds with ⟨h1, -⟩ | ⟨xs, h1, h2⟩
  · exact absurd h1 ht
  · obtain ⟨x, rfl⟩ := hf xs _ h2
    have := congrArg List.length h1
    simp only [List.length_map, List.length_singleton] at this
    exact List.length_eq_one_iff.1 this

/-- The number of arguments of the functions with custom decompositions. -/
theorem arity1 {f : Fn ℝ} {v : Env ℝ} {y : ℝ} (h : (Expr.fn f as).eval v = some y)
    (hf : ∀ xs y, realApp f xs = some y → ∃ x, xs = [x]) (ht : f ≠ .time)
    (hst : List.Forall₂ (Stands (TDef par neq X t0) dc) as' as) : ∃ a, as' = [a] := by
  rcases eval_args h with ⟨h1, -⟩ | ⟨xs, h1, h2⟩
  · exact absurd h1 ht
  · obtain ⟨x, rfl⟩ := hf xs _ h2
    have := congrArg List.length h1
    simp only [List.length_map, List.length_singleton] at this
    exact List.length_eq_one_iff.1 (hst.length_eq.trans this)

section cases
variable {f : Fn ℝ} (hneq : 0 < neq) (hC : HidClosed P) (hI : TInv P par neq X t0 dc)
  (hst : List.Forall₂ (Stands (TDef par neq X t0) dc) as' as)

include hneq hI hst

/-- The functions which are just appended. -/
theorem ok_default (hg : NodeGood P par neq X t0 f as)
    (hcd : customDec dc.length f as' = .ok (0, [(.fn f as', [])]))
    (hd : ∀ F idx, DepsOk F t0 idx f (as'.map (targU par)) []) :
    ∃ i d, taylorFdc (.fn f as') dc = .ok (i, dc ++ d) ∧ TInv P par neq X t0 (dc ++ d) ∧
      TDef par neq X t0 (dc ++ d) i (.fn f as) := by
  have ha := tstands_argOk hI.len hst hg.leaves
  refine ok_of hneq hI hg hst hcd rfl ?_ ?_
  · intro j e he
    rcases j with _ | j
    · cases he; exact ha
    · cases he
  · intro F hF hf j e he
    rcases j with _ | j
    · cases he; exact hf.main hg.fn ha (hd _ _) (by simp)
    · cases he

include hC

/-- `sin`, `cos`, `sinh`, `cosh`: the companion function comes first. -/
theorem ok_companion {g : Fn ℝ} {S C : ℝ → ℝ} (hg : NodeGood P par neq X t0 f as)
    (hcd : ∀ n a, customDec n f [a] = .ok (1, [(unaryE g a, [n + 1]), (.fn f [a], [n])]))
    (hPg : P g) (hfS : ∀ xs y, realApp f xs = some y → ∃ x, xs = [x] ∧ y = S x) (hgC : ∀ x, realApp g [x] = some (C x))
    (htf : f ≠ .time) (htg : g ≠ .time) (hsup : ∀ b, Supported g [b]) (hreg : ∀ F idx b, Regular F t0 idx g [b])
    (hdf : ∀ F idx b d, (F d =ᶠ[𝓝 t0] fun t => C (argFn F b t)) → DepsOk F t0 idx f [b] [d])
    (hdg : ∀ F idx b d, (F d =ᶠ[𝓝 t0] fun t => S (argFn F b t)) → DepsOk F t0 idx g [b] [d]) :
    ∃ i d, taylorFdc (.fn f as') dc = .ok (i, dc ++ d) ∧ TInv P par neq X t0 (dc ++ d) ∧
      TDef par neq X t0 (dc ++ d) i (.fn f as) := by
  obtain ⟨y0, hy0⟩ := hg.defined.self_of_nhds
  obtain ⟨a, rfl⟩ := arity1 hy0 (fun xs y h => by obtain ⟨x, h1, -⟩ := hfS xs y h; exact ⟨x, h1⟩) htf hst
  have ha := tstands_argOk hI.len hst hg.leaves a (by simp)
  refine ok_of hneq hI hg hst (hcd _ a) rfl ?_ ?_
  · intro j e he
    rcases j with _ | _ | j
    · cases he; exact shape_unary ha
    · cases he; exact List.forall_mem_singleton.2 (argOk_mono ha (by omega))
    · cases he
  · intro F hF hf
    have h0 := hF.new hI.len (k := 0) rfl
    have hA := hf.arg a (by simp)
    obtain ⟨v0, e0⟩ := fits_val h0 (eval_unary hgC htg hA)
    have v1 : F (dc.length + 1) =ᶠ[𝓝 t0] fun t => S (argFn F (targU par a) t) := by
      filter_upwards [hf.val, hA] with t h1 h2
      rcases eval_args h1 with ⟨h3, -⟩ | ⟨xs, h3, h4⟩
      · exact absurd h3 htf
      · obtain ⟨x, rfl, h5⟩ := hfS xs _ h4
        simp only [List.map_cons, List.map_nil, h2, List.cons.injEq, Option.some.injEq, and_true] at h3
        rw [h5, h3]
    intro j e he
    rcases j with _ | _ | j
    · cases he
      exact telem_unary hPg ha e0 (hsup _) (hdg _ _ _ _ v1) (hreg _ _ _) (by simp)
    · cases he
      exact hf.main hg.fn (List.forall_mem_singleton.2 (argOk_mono ha (by omega))) (hdf _ _ _ _ v0) (by simp)
    · cases he

/-- `tan`, `tanh`, `sigmoid`: the square of the function follows. -/
theorem ok_square (hg : NodeGood P par neq X t0 f as)
    (hcd : ∀ n a, customDec n f [a] = .ok (0, [(.fn f [a], [n + 1]), (powE (uvar n) (.dbl 2), [])]))
    (hfS : ∀ xs y, realApp f xs = some y → ∃ x, xs = [x]) (htf : f ≠ .time)
    (hdf : ∀ F idx b d, (F d =ᶠ[𝓝 t0] fun t => F idx t ^ 2) → DepsOk F t0 idx f [b] [d]) :
    ∃ i d, taylorFdc (.fn f as') dc = .ok (i, dc ++ d) ∧ TInv P par neq X t0 (dc ++ d) ∧
      TDef par neq X t0 (dc ++ d) i (.fn f as) := by
  obtain ⟨y0, hy0⟩ := hg.defined.self_of_nhds
  obtain ⟨a, rfl⟩ := arity1 hy0 hfS htf hst
  have ha := tstands_argOk hI.len hst hg.leaves a (by simp)
  refine ok_of hneq hI hg hst (hcd _ a) rfl ?_ ?_
  · intro j e he
    rcases j with _ | _ | j
    · cases he; exact List.forall_mem_singleton.2 ha
    · cases he; exact shape_pow (argOk_uvar (by omega)) (by norm_num)
    · cases he
  · intro F hF hf
    have h1 := hF.new hI.len (k := 1) rfl
    obtain ⟨v1, e1⟩ := fits_val h1 (eval_pow2 (eval_uvar dc.length))
    intro j e he
    rcases j with _ | _ | j
    · cases he
      exact hf.main hg.fn (List.forall_mem_singleton.2 ha) (hdf _ _ _ _ v1) (by simp)
    · cases he
      exact telem_pow hC.pow (argOk_uvar (by omega)) (by norm_num) (by norm_num) e1 (.inr rfl)
    · cases he

/-- `atan`, `atanh`: the square of the argument comes first. -/
theorem ok_argSquare (hg : NodeGood P par neq X t0 f as)
    (hcd : ∀ n a, customDec n f [a] = .ok (1, [(powE a (.dbl 2), []), (.fn f [a], [n])]))
    (hfS : ∀ xs y, realApp f xs = some y → ∃ x, xs = [x]) (htf : f ≠ .time)
    (hdf : ∀ F idx b d, (F d =ᶠ[𝓝 t0] fun t => argFn F b t ^ 2) → DepsOk F t0 idx f [b] [d]) :
    ∃ i d, taylorFdc (.fn f as') dc = .ok (i, dc ++ d) ∧ TInv P par neq X t0 (dc ++ d) ∧
      TDef par neq X t0 (dc ++ d) i (.fn f as) := by
  obtain ⟨y0, hy0⟩ := hg.defined.self_of_nhds
  obtain ⟨a, rfl⟩ := arity1 hy0 hfS htf hst
  have ha := tstands_argOk hI.len hst hg.leaves a (by simp)
  refine ok_of hneq hI hg hst (hcd _ a) rfl ?_ ?_
  · intro j e he
    rcases j with _ | _ | j
    · cases he; exact shape_pow ha (by norm_num)
    · cases he; exact List.forall_mem_singleton.2 (argOk_mono ha (by omega))
    · cases he
  · intro F hF hf
    have h0 := hF.new hI.len (k := 0) rfl
    obtain ⟨v0, e0⟩ := fits_val h0 (eval_pow2 (hf.arg a (by simp)))
    intro j e he
    rcases j with _ | _ | j
    · cases he
      exact telem_pow hC.pow ha (by norm_num) (by norm_num) e0 (.inr rfl)
    · cases he
      exact hf.main hg.fn (List.forall_mem_singleton.2 (argOk_mono ha (by omega))) (hdf _ _ _ _ v0) (by simp)
    · cases he

/-- `asin`, `acos`, `asinh`, `acosh`, `erf`: three elements come first, the third one is the hidden
dependency. -/
theorem ok_three {e1 e2 : ℕ → Expr ℝ} {D : ℝ → ℝ} (hg : NodeGood P par neq X t0 f as)
    (hcd : ∀ n a, customDec n f [a] =
      .ok (3, [(powE a (.dbl 2), []), (e1 n, []), (e2 (n + 1), []), (.fn f [a], [n + 2])]))
    (hfS : ∀ xs y, realApp f xs = some y → ∃ x, xs = [x]) (htf : f ≠ .time)
    (hs1 : ∀ n, Shape (n + 1) (e1 n)) (hs2 : ∀ n, Shape (n + 1) (e2 n))
    (hdf : ∀ F idx b d, (F d =ᶠ[𝓝 t0] fun t => D (argFn F b t)) → DepsOk F t0 idx f [b] [d])
    (hmid : ∀ F n m a, ArgOk n a → Facts par t0 F (n + 3) f [a] →
      (F n =ᶠ[𝓝 t0] fun t => argFn F (targU par a) t ^ 2) →
      (F (n + 1) = fun t => ((e1 n).eval (envF par F t)).getD 0) →
      (F (n + 2) = fun t => ((e2 (n + 1)).eval (envF par F t)).getD 0) →
      TElemOk P F t0 par m (n + 1) (e1 n, []) ∧ TElemOk P F t0 par m (n + 2) (e2 (n + 1), []) ∧
      F (n + 2) =ᶠ[𝓝 t0] fun t => D (argFn F (targU par a) t)) :
    ∃ i d, taylorFdc (.fn f as') dc = .ok (i, dc ++ d) ∧ TInv P par neq X t0 (dc ++ d) ∧
      TDef par neq X t0 (dc ++ d) i (.fn f as) := by
  obtain ⟨y0, hy0⟩ := hg.defined.self_of_nhds
  obtain ⟨a, rfl⟩ := arity1 hy0 hfS htf hst
  have ha := tstands_argOk hI.len hst hg.leaves a (by simp)
  refine ok_of hneq hI hg hst (hcd _ a) rfl ?_ ?_
  · intro j e he
    rcases j with _ | _ | _ | _ | j
    · cases he; exact shape_pow ha (by norm_num)
    · cases he; exact hs1 _
    · cases he; exact hs2 _
    · cases he; exact List.forall_mem_singleton.2 (argOk_mono ha (by omega))
    · cases he
  · intro F hF hf
    have h0 := hF.new hI.len (k := 0) rfl
    have h1 := hF.new hI.len (k := 1) rfl
    have h2 := hF.new hI.len (k := 2) rfl
    obtain ⟨v0, e0⟩ := fits_val h0 (eval_pow2 (hf.arg a (by simp)))
    obtain ⟨m1, m2, v2⟩ := hmid F dc.length _ a ha hf v0 h1 h2
    intro j e he
    rcases j with _ | _ | _ | _ | j
    · cases he
      exact telem_pow hC.pow ha (by norm_num) (by norm_num) e0 (.inr rfl)
    · cases he; exact m1
    · cases he; exact m2
    · cases he
      exact hf.main hg.fn (List.forall_mem_singleton.2 (argOk_mono ha (by omega))) (hdf _ _ _ _ v2) (by simp)
    · cases he

end cases

end Heyoka.Taylor
