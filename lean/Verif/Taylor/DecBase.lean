import Verif.Taylor.ReIdx
import Verif.Taylor.NodeSpec
import Verif.Decomp.FunDecLemmas

/-!
# Taylor decompositions along curves

The specification of the elements of a Taylor decomposition along curves `F`, and its invariance under a change of
the indices.
-/

set_option linter.unusedSectionVars false

open Filter Topology

namespace Heyoka.Taylor

open Heyoka.Sym

/-- The assignment of the values of the curves at the time `t`. -/
noncomputable def envF (par : ℕ → ℝ) (F : ℕ → ℝ → ℝ) (t : ℝ) : Env ℝ := ⟨fun s => F (uidx s) t, par, t⟩

/-- The argument of a function of the decomposition. -/
noncomputable def targU (par : ℕ → ℝ) : Expr ℝ → TArg ℝ
  | .num x => .cst true (V.ofOption x.toK?)
  | .par i => .cst false (V.fin (par i))
  | .var s => .u (uidx s)
  | .fn _ _ => .cst false V.nan

variable {par : ℕ → ℝ} {F F' : ℕ → ℝ → ℝ} {t t0 : ℝ} {i n n' : ℕ}

theorem argAt_targU {a : Expr ℝ} (ha : ArgOk i a) : argAt F t (targU par a) = a.eval (envF par F t) := by
  cases a with
  | num x => simp [targU, argAt]
  | par j => simp [targU, argAt, envF]
  | var s => simp [targU, argAt, envF]
  | fn f as => exact absurd ha (by simp [ArgOk])

theorem argsAt_targU {es : List (Expr ℝ)} (ha : ∀ a ∈ es, ArgOk i a) :
    (es.map (targU par)).map (argAt F t) = es.map fun a => a.eval (envF par F t) := by
  rw [List.map_map]
  exact List.map_congr_left fun a h => argAt_targU (ha a h)

theorem nodeVal_targU {f : Fn ℝ} {es : List (Expr ℝ)} (ha : ∀ a ∈ es, ArgOk i a) :
    nodeVal t f ((es.map (targU par)).map (argAt F t)) = (Expr.fn f es).eval (envF par F t) := by
  rw [argsAt_targU ha, ← appO_eval]
  generalize es.map (fun a => a.eval (envF par F t)) = xs
  cases f <;> cases xs <;> rfl

theorem targ_targU {a : Expr ℝ} (hi : i ≤ 2 ^ 32) (ha : ArgOk i a) : targ par a = .ok (targU par a) := by
  cases a with
  | num x => rfl
  | par j => rfl
  | var s =>
    obtain ⟨j, hj, rfl⟩ := ha
    simp only [targ, targU, unameToIndex_uname, uidx_uname]
    rw [if_pos (by omega)]
    rfl
  | fn f as => exact absurd ha (by simp [ArgOk])

theorem targs_targU {es : List (Expr ℝ)} (hi : i ≤ 2 ^ 32) (ha : ∀ a ∈ es, ArgOk i a) :
    targs par es = .ok (es.map (targU par)) := by
  induction es with
  | nil => rfl
  | cons a as ih =>
    rw [targs, targ_targU hi (ha a (by simp)), ih fun b hb => ha b (by simp [hb])]
    rfl

theorem targU_u {es : List (Expr ℝ)} (ha : ∀ a ∈ es, ArgOk i a) {j : ℕ} (h : .u j ∈ es.map (targU par)) :
    j < i ∧ .var (uname j) ∈ es := by
  obtain ⟨a, hm, hj⟩ := List.mem_map.1 h
  cases a with
  | var s =>
    obtain ⟨k, hk, rfl⟩ := ha _ hm
    simp only [targU, uidx_uname, TArg.u.injEq] at hj
    subst hj
    exact ⟨hk, hm⟩
  | _ => cases hj

/-! ### Nodes, without the smoothness of the arguments -/

/-- As `Node`, without the smoothness of the arguments. -/
structure Pre (F : ℕ → ℝ → ℝ) (t0 : ℝ) (idx : ℕ) (deps : List ℕ) (f : Fn ℝ) (as : List (TArg ℝ)) : Prop where
  val : ∀ᶠ t in 𝓝 t0, nodeVal t f (as.map (argAt F t)) = some (F idx t)
  sup : Supported f as
  deps : DepsOk F t0 idx f as deps
  reg : (∀ a ∈ as, a.isCst) ∨ Regular F t0 idx f as

theorem Pre.node {idx : ℕ} {deps : List ℕ} {f : Fn ℝ} {as : List (TArg ℝ)} (h : Pre F t0 idx deps f as)
    (hs : ∀ u, .u u ∈ as → SmoothAt (F u) t0) : Node F t0 idx deps f as :=
  ⟨h.val, hs, h.sup, h.deps, h.reg⟩

/-- A change of the indices in an argument. -/
def TArg.reidx (π : ℕ → ℕ) : TArg ℝ → TArg ℝ
  | .cst m c => .cst m c
  | .u i => .u (π i)

/-- The curves `F'` agree with `F` around `t0`, up to the change of the indices, for the argument. -/
def AgreeArg (π : ℕ → ℕ) (F F' : ℕ → ℝ → ℝ) (t0 : ℝ) (a : TArg ℝ) : Prop :=
  ∀ u, a = .u u → F' (π u) =ᶠ[𝓝 t0] F u

variable {π : ℕ → ℕ}

theorem AgreeArg.argFn {a : TArg ℝ} (h : AgreeArg π F F' t0 a) : argFn F' (a.reidx π) =ᶠ[𝓝 t0] argFn F a := by
  cases a with
  | cst m c => exact .rfl
  | u j => exact h j rfl

theorem AgreeArg.argAt {a : TArg ℝ} (h : AgreeArg π F F' t0 a) :
    ∀ᶠ t in 𝓝 t0, argAt F' t (a.reidx π) = argAt F t a := by
  cases a with
  | cst m c => exact .of_forall fun _ => rfl
  | u j => filter_upwards [h j rfl] with t ht; simp [TArg.reidx, Taylor.argAt, ht]

theorem agree_list {as : List (TArg ℝ)} {p : ℝ → TArg ℝ → Prop} (h : ∀ a ∈ as, ∀ᶠ t in 𝓝 t0, p t a) :
    ∀ᶠ t in 𝓝 t0, ∀ a ∈ as, p t a := by
  induction as with
  | nil => simp
  | cons a as ih =>
    filter_upwards [h a (by simp), ih fun b hb => h b (by simp [hb])] with t h1 h2
    intro b hb
    rcases List.mem_cons.1 hb with rfl | hb
    · exact h1
    · exact h2 b hb

@[simp] theorem isCst_reidx (a : TArg ℝ) : (a.reidx π).isCst ↔ a.isCst := by cases a <;> rfl

theorem supported_reidx {f : Fn ℝ} {as : List (TArg ℝ)} (h : Supported f as) :
    Supported f (as.map (TArg.reidx π)) := by
  cases f
  case pow k =>
    obtain ⟨x, m, e, rfl⟩ := h
    exact ⟨x.reidx π, m, e, rfl⟩
  case numId =>
    obtain ⟨c, rfl⟩ := h
    exact ⟨c, rfl⟩
  case kepDE => exact h.elim
  all_goals first
    | trivial
    | (simp only [Supported] at h ⊢; simpa using h)

theorem dep_trans {g g' x x' : ℝ → ℝ} (h : x =ᶠ[𝓝 t0] g) (hx : x' =ᶠ[𝓝 t0] x) (hg : g' =ᶠ[𝓝 t0] g) :
    x' =ᶠ[𝓝 t0] g' := hx.trans (h.trans hg.symm)

theorem depsOk_reidx {idx : ℕ} {f : Fn ℝ} {as : List (TArg ℝ)} {ds : List ℕ} (h : DepsOk F t0 idx f as ds)
    (hi : F' (π idx) =ᶠ[𝓝 t0] F idx) (hd : ∀ d ∈ ds, F' (π d) =ᶠ[𝓝 t0] F d)
    (ha : ∀ a ∈ as, AgreeArg π F F' t0 a) :
    DepsOk F' t0 (π idx) f (as.map (TArg.reidx π)) (ds.map π) := by
  have one : ∀ {d : ℕ} {b : TArg ℝ} {G : ℝ → ℝ}, d ∈ ds → b ∈ as → (F d =ᶠ[𝓝 t0] fun t => G (argFn F b t)) →
      F' (π d) =ᶠ[𝓝 t0] fun t => G (argFn F' (b.reidx π) t) := by
    intro d b G hd' hb h1
    refine dep_trans h1 (hd d hd') ?_
    filter_upwards [(ha b hb).argFn] with t ht
    rw [ht]
  have self : ∀ {d : ℕ} {G : ℝ → ℝ}, d ∈ ds → (F d =ᶠ[𝓝 t0] fun t => G (F idx t)) →
      F' (π d) =ᶠ[𝓝 t0] fun t => G (F' (π idx) t) := by
    intro d G hd' h1
    refine dep_trans h1 (hd d hd') ?_
    filter_upwards [hi] with t ht
    rw [ht]
  have two : ∀ {d : ℕ} {b : TArg ℝ} {G : ℝ → ℝ → ℝ}, d ∈ ds → b ∈ as →
      (F d =ᶠ[𝓝 t0] fun t => G (argFn F b t) (F idx t)) →
      F' (π d) =ᶠ[𝓝 t0] fun t => G (argFn F' (b.reidx π) t) (F' (π idx) t) := by
    intro d b G hd' hb h1
    refine dep_trans h1 (hd d hd') ?_
    filter_upwards [(ha b hb).argFn, hi] with t ht ht'
    rw [ht, ht']
  rcases as with _ | ⟨a, _ | ⟨b, _ | ⟨c, _ | ⟨d, rest⟩⟩⟩⟩
  · cases f <;> (simp only [DepsOk, List.map_nil] at h ⊢; simp [h])
  · cases f
    case sin k => obtain ⟨d, rfl, h⟩ := h; exact ⟨π d, rfl, one (G := Real.cos) (by simp) (by simp) h⟩
    case cos k => obtain ⟨d, rfl, h⟩ := h; exact ⟨π d, rfl, one (G := Real.sin) (by simp) (by simp) h⟩
    case sinh => obtain ⟨d, rfl, h⟩ := h; exact ⟨π d, rfl, one (G := Real.cosh) (by simp) (by simp) h⟩
    case cosh => obtain ⟨d, rfl, h⟩ := h; exact ⟨π d, rfl, one (G := Real.sinh) (by simp) (by simp) h⟩
    case tan => obtain ⟨d, rfl, h⟩ := h; exact ⟨π d, rfl, self (G := fun x => x ^ 2) (by simp) h⟩
    case tanh => obtain ⟨d, rfl, h⟩ := h; exact ⟨π d, rfl, self (G := fun x => x ^ 2) (by simp) h⟩
    case sigmoid => obtain ⟨d, rfl, h⟩ := h; exact ⟨π d, rfl, self (G := fun x => x ^ 2) (by simp) h⟩
    case asin =>
      obtain ⟨d, rfl, h⟩ := h; exact ⟨π d, rfl, one (G := fun x => Real.sqrt (1 - x ^ 2)) (by simp) (by simp) h⟩
    case acos =>
      obtain ⟨d, rfl, h⟩ := h; exact ⟨π d, rfl, one (G := fun x => Real.sqrt (1 - x ^ 2)) (by simp) (by simp) h⟩
    case asinh =>
      obtain ⟨d, rfl, h⟩ := h; exact ⟨π d, rfl, one (G := fun x => Real.sqrt (1 + x ^ 2)) (by simp) (by simp) h⟩
    case acosh =>
      obtain ⟨d, rfl, h⟩ := h; exact ⟨π d, rfl, one (G := fun x => Real.sqrt (x ^ 2 - 1)) (by simp) (by simp) h⟩
    case atan => obtain ⟨d, rfl, h⟩ := h; exact ⟨π d, rfl, one (G := fun x => x ^ 2) (by simp) (by simp) h⟩
    case atanh => obtain ⟨d, rfl, h⟩ := h; exact ⟨π d, rfl, one (G := fun x => x ^ 2) (by simp) (by simp) h⟩
    case erf =>
      obtain ⟨d, rfl, h⟩ := h; exact ⟨π d, rfl, one (G := fun x => Real.exp (-x ^ 2)) (by simp) (by simp) h⟩
    all_goals (simp only [DepsOk, List.map_nil, List.map_cons] at h ⊢; simp [h])
  · cases f
    case atan2 =>
      obtain ⟨d, rfl, h⟩ := h
      refine ⟨π d, rfl, dep_trans h (hd d (by simp)) ?_⟩
      filter_upwards [(ha a (by simp)).argFn, (ha b (by simp)).argFn] with t h1 h2
      rw [h1, h2]
    case kepE =>
      obtain ⟨c, d, rfl, h1, h2⟩ := h
      exact ⟨π c, π d, rfl, two (G := fun x y => x * Real.cos y) (by simp) (by simp) h1,
        self (G := Real.sin) (by simp) h2⟩
    all_goals (simp only [DepsOk, List.map_nil, List.map_cons] at h ⊢; simp [h])
  · cases f
    case kepF =>
      obtain ⟨x, d, e, f, rfl, h1, h2, h3, h4⟩ := h
      exact ⟨π x, π d, π e, π f, rfl, two (G := fun x y => x * Real.sin y) (by simp) (by simp) h1,
        two (G := fun x y => x * Real.cos y) (by simp) (by simp) h2,
        self (G := Real.sin) (by simp) h3, self (G := Real.cos) (by simp) h4⟩
    all_goals (simp only [DepsOk, List.map_nil, List.map_cons] at h ⊢; simp [h])
  · cases f <;> (simp only [DepsOk, List.map_cons] at h ⊢; simp [h])

theorem regular_reidx {idx : ℕ} {f : Fn ℝ} {as : List (TArg ℝ)} (h : Regular F t0 idx f as)
    (hi : F' (π idx) =ᶠ[𝓝 t0] F idx) (ha : ∀ a ∈ as, AgreeArg π F F' t0 a) :
    Regular F' t0 (π idx) f (as.map (TArg.reidx π)) := by
  have at0 : ∀ a ∈ as, argFn F' (a.reidx π) t0 = argFn F a t0 := fun a h => (ha a h).argFn.self_of_nhds
  have hi0 : F' (π idx) t0 = F idx t0 := hi.self_of_nhds
  have hall := agree_list (p := fun t a => argFn F' (a.reidx π) t = argFn F a t) fun a h => (ha a h).argFn
  cases f
  case land =>
    simp only [Regular] at h ⊢
    filter_upwards [h, hall] with t ht h1
    simp only [List.forall_mem_map]
    rw [show (∀ a ∈ as, argFn F' (a.reidx π) t ≠ 0) ↔ ∀ a ∈ as, argFn F a t ≠ 0 from
      forall₂_congr fun a hm => by rw [h1 a hm], ht]
    exact forall₂_congr fun a hm => by rw [at0 a hm]
  case lor =>
    simp only [Regular] at h ⊢
    filter_upwards [h, hall] with t ht h1
    have hex : ∀ q : TArg ℝ → Prop, (∃ a ∈ as.map (TArg.reidx π), q a) ↔ ∃ a ∈ as, q (a.reidx π) := by simp
    rw [hex, hex, show (∃ a ∈ as, argFn F' (a.reidx π) t ≠ 0) ↔ ∃ a ∈ as, argFn F a t ≠ 0 from
      exists_congr fun a => and_congr_right fun hm => by rw [h1 a hm], ht]
    exact exists_congr fun a => and_congr_right fun hm => by rw [at0 a hm]
  case kepE => simp only [Regular] at h ⊢; rwa [hi0]
  case kepF => simp only [Regular] at h ⊢; rwa [hi0]
  all_goals
    rcases as with _ | ⟨a, _ | ⟨b, _ | ⟨c, _ | ⟨d, rest⟩⟩⟩⟩
  case select.cons.cons.cons.nil =>
    simp only [Regular, List.map_nil, List.map_cons] at h ⊢
    filter_upwards [h, hall] with t ht h1
    rw [h1 a (by simp), at0 a (by simp), ht]
  case rel.cons.cons.nil =>
    simp only [Regular, List.map_nil, List.map_cons] at h ⊢
    filter_upwards [h, hall] with t ht h1
    rw [h1 a (by simp), at0 a (by simp), h1 b (by simp), at0 b (by simp), ht]
  case relu.cons.nil =>
    simp only [Regular, List.map_nil, List.map_cons] at h ⊢
    filter_upwards [h, hall] with t ht h1
    rw [h1 a (by simp), at0 a (by simp), ht]
  case relup.cons.nil =>
    simp only [Regular, List.map_nil, List.map_cons] at h ⊢
    filter_upwards [h, hall] with t ht h1
    rw [h1 a (by simp), at0 a (by simp), ht]
  case pow.cons.cons.nil =>
    cases b with
    | cst m e =>
      have h1 : (TArg.cst m e).reidx π = .cst m e := rfl
      simp only [Regular, List.map_nil, List.map_cons, h1] at h ⊢
      rwa [at0 a (by simp)]
    | u j => simp [Regular, TArg.reidx]
  case asin.cons.nil => simp only [Regular, List.map_nil, List.map_cons] at h ⊢; rwa [at0 a (by simp)]
  case acos.cons.nil => simp only [Regular, List.map_nil, List.map_cons] at h ⊢; rwa [at0 a (by simp)]
  case acosh.cons.nil => simp only [Regular, List.map_nil, List.map_cons] at h ⊢; rwa [at0 a (by simp)]
  case atan2.cons.cons.nil =>
    simp only [Regular, List.map_nil, List.map_cons] at h ⊢
    rwa [at0 a (by simp), at0 b (by simp)]
  all_goals simp [Regular]

/-- A node is invariant under a change of the indices. -/
theorem Pre.reidx {idx : ℕ} {deps : List ℕ} {f : Fn ℝ} {as : List (TArg ℝ)} (h : Pre F t0 idx deps f as)
    (hi : F' (π idx) =ᶠ[𝓝 t0] F idx) (hd : ∀ d ∈ deps, F' (π d) =ᶠ[𝓝 t0] F d)
    (ha : ∀ a ∈ as, AgreeArg π F F' t0 a) :
    Pre F' t0 (π idx) (deps.map π) f (as.map (TArg.reidx π)) where
  val := by
    filter_upwards [h.val, hi, agree_list (p := fun t a => argAt F' t (a.reidx π) = argAt F t a)
      fun a h => (ha a h).argAt] with t h1 h2 h3
    rw [h2, ← h1, List.map_map]
    congr 1
    exact List.map_congr_left h3
  sup := supported_reidx h.sup
  deps := depsOk_reidx h.deps hi hd ha
  reg := by
    rcases h.reg with h1 | h1
    · refine .inl fun a hm => ?_
      obtain ⟨b, hb, rfl⟩ := List.mem_map.1 hm
      exact (isCst_reidx b).2 (h1 b hb)
    · exact .inr (regular_reidx h1 hi ha)

/-! ### Elements -/

/-- The curves satisfy the definition `e` of the `u` variable `i`, one of `n`: a function of earlier variables, or a
number (the hidden dependencies may be folded). -/
structure TElemOk (P : Fn ℝ → Prop) (F : ℕ → ℝ → ℝ) (t0 : ℝ) (par : ℕ → ℝ) (n i : ℕ) (e : TElem ℝ) : Prop where
  deps : ∀ d ∈ e.2, d < n
  ok : (∃ f es, e.1 = .fn f es ∧ P f ∧ (∀ a ∈ es, ArgOk i a) ∧ Pre F t0 i e.2 f (es.map (targU par))) ∨
    ∃ m c, e.1 = .num m ∧ m.toK? = some c ∧ F i =ᶠ[𝓝 t0] fun _ => c

variable {P : Fn ℝ → Prop}

theorem TElemOk.val {e : TElem ℝ} (h : TElemOk P F t0 par n i e) :
    ∀ᶠ t in 𝓝 t0, e.1.eval (envF par F t) = some (F i t) := by
  rcases h.ok with ⟨f, es, he, -, ha, hp⟩ | ⟨m, c, he, hm, hc⟩
  · rw [he]
    filter_upwards [hp.val] with t ht
    rw [← nodeVal_targU ha, ht]
  · rw [he]
    filter_upwards [hc] with t ht
    rw [Expr.eval_num, hm, ht]

theorem TElemOk.mono {e : TElem ℝ} (h : TElemOk P F t0 par n i e) (hn : n ≤ n') : TElemOk P F t0 par n' i e :=
  ⟨fun d hd => (h.deps d hd).trans_le hn, h.ok⟩

theorem TElemOk.renameIn {e : TElem ℝ} (h : TElemOk P F t0 par n i e) {ren : List (String × String)}
    (hr : ∀ j < i, ren.lookup (uname j) = some (uname (π j))) : renameIn ren e.1 = reElem π e.1 := by
  rcases h.ok with ⟨f, es, he, -, ha, -⟩ | ⟨m, c, he, -, -⟩
  · rw [he]; exact renameIn_fn ha hr
  · rw [he]
    simp [Sym.renameIn, Expr.mapNodes, renameLeaf, reElem, reArg]

theorem TElemOk.reElem_congr {e : TElem ℝ} (h : TElemOk P F t0 par n i e) {π' : ℕ → ℕ}
    (hr : ∀ j < i, π j = π' j) : reElem π e.1 = reElem π' e.1 := by
  rcases h.ok with ⟨f, es, he, -, ha, -⟩ | ⟨m, c, he, -, -⟩
  · rw [he, reElem, reElem]
    congr 1
    refine List.map_congr_left fun a hm => ?_
    cases a with
    | var s =>
      obtain ⟨j, hj, rfl⟩ := ha _ hm
      simp [reArg, hr j hj]
    | _ => rfl
  · rw [he]; rfl

theorem targU_reArg (a : Expr ℝ) : targU par (reArg π a) = (targU par a).reidx π := by
  cases a <;> simp [reArg, targU, TArg.reidx]

theorem eval_reArg {a : Expr ℝ} (ha : ArgOk i a) (h : ∀ j < i, F' (π j) t = F j t) :
    (reArg π a).eval (envF par F' t) = a.eval (envF par F t) := by
  cases a with
  | var s =>
    obtain ⟨j, hj, rfl⟩ := ha
    simp [reArg, envF, h j hj]
  | fn f as => exact absurd ha (by simp [ArgOk])
  | _ => simp [reArg, envF]

/-- An element is invariant under a change of the indices. -/
theorem TElemOk.reidx {e : TElem ℝ} (h : TElemOk P F t0 par n i e) (hi : i < n)
    (hF : ∀ j < n, F' (π j) =ᶠ[𝓝 t0] F j) (hn : ∀ j < n, π j < n')
    (ho : ∀ j, ReadsVar e.1 j → π j < π i) :
    TElemOk P F' t0 par n' (π i) (reElem π e.1, e.2.map π) := by
  refine ⟨fun d hd => ?_, ?_⟩
  · obtain ⟨d', h1, rfl⟩ := List.mem_map.1 hd
    exact hn d' (h.deps d' h1)
  · rcases h.ok with ⟨f, es, he, hP, ha, hp⟩ | ⟨m, c, he, hm, hc⟩
    · refine .inl ⟨f, es.map (reArg π), by simp [he, reElem], hP, ?_, ?_⟩
      · intro a hm
        obtain ⟨b, hb, rfl⟩ := List.mem_map.1 hm
        refine argOk_reArg (ha b hb) fun j hj => ho j ⟨f, es, he, ?_⟩
        rw [← hj]; exact hb
      · have : (es.map (reArg π)).map (targU par) = (es.map (targU par)).map (TArg.reidx π) := by
          rw [List.map_map, List.map_map]
          exact List.map_congr_left fun a _ => targU_reArg a
        rw [this]
        refine hp.reidx (hF i hi) (fun d hd => hF d (h.deps d hd)) fun a hm u hu => ?_
        subst hu
        exact hF u ((targU_u ha hm).1.trans hi)
    · exact .inr ⟨m, c, by simp [he, reElem, reArg], hm, (hF i hi).trans hc⟩

end Heyoka.Taylor
