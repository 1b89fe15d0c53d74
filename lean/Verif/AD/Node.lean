import Verif.AD.Pass
import Verif.AD.Prep

/-!
# The chain rule for the elements of a decomposition
-/

set_option linter.unusedSectionVars false

namespace Heyoka.AD

open Heyoka.Sym Filter Topology

variable [DFunc]

/-- Is the expression the given variable? -/
def isV (s : String) : Expr ℝ → Bool
  | .var t => t = s
  | _ => false

theorem isV_iff {s : String} {e : Expr ℝ} : isV s e = true ↔ e = .var s := by
  cases e <;> simp [isV]

theorem collect_filter {α : Type} (s : String) (a g : α → Expr ℝ) (T : List α) :
    collect s (T.map a) (T.map g) = (T.filter fun p => isV s (a p)).map g := by
  induction T with
  | nil => rfl
  | cons p T ih =>
    rw [List.map_cons, List.map_cons, List.filter_cons]
    cases h : a p with
    | var t =>
      rw [collect, ih]
      by_cases hts : t = s <;> simp [isV, hts]
    | num n => rw [collect, ih] <;> simp [isV]
    | par n => rw [collect, ih] <;> simp [isV]
    | fn f as => rw [collect, ih] <;> simp [isV]

theorem sum_single {l : Nat} {c : ℝ} {ds : List Nat} (hn : ds.Nodup) (hl : l ∈ ds) :
    (ds.map fun d => if d = l then c else 0).sum = c := by
  rw [← List.sum_toFinset _ hn, Finset.sum_ite_eq' , if_pos (by simpa using hl)]

/-- A sum over the arguments of a function, grouped by the variables. -/
theorem sum_group {α : Type} {a : α → Expr ℝ} {h : α → ℝ} {ds : List Nat} (hn : ds.Nodup) {T : List α}
    (hT : ∀ p ∈ T, h p = 0 ∨ ∃ l ∈ ds, a p = .var (uname l)) :
    (T.map h).sum = (ds.map fun l => ((T.filter fun p => isV (uname l) (a p)).map h).sum).sum := by
  induction T with
  | nil => simp
  | cons p T ih =>
    have ih := ih fun q hq => hT q (List.mem_cons_of_mem _ hq)
    have step : ∀ l, (((p :: T).filter fun p => isV (uname l) (a p)).map h).sum =
        (if isV (uname l) (a p) = true then h p else 0) + ((T.filter fun p => isV (uname l) (a p)).map h).sum := by
      intro l
      rw [List.filter_cons]
      split_ifs <;> simp
    rw [List.map_cons, List.sum_cons, ih]
    simp only [step]
    rw [List.sum_map_add]
    congr 1
    rcases hT p List.mem_cons_self with h0 | ⟨l, hl, hp⟩
    · simp [h0]
    · rw [hp]
      have : (fun l' => if isV (uname l') (.var (uname l)) = true then h p else 0) = fun d => if d = l then h p else 0 := by
        funext d
        by_cases hd : d = l
        · simp [hd, isV]
        · have : uname l ≠ uname d := fun hh => hd (uname_inj hh).symm
          simp [hd, this, isV]
      rw [this, sum_single hn hl]

/-- The point at which the adjoints are evaluated: the variables `u_i` have the values of the elements. -/
noncomputable def uEnv (Y : List (Expr ℝ)) (v : Env ℝ) : Env ℝ :=
  ⟨fun s => ((subsLook Y s).bind (Expr.eval v)).getD 0, v.par, v.time⟩

theorem uEnv_uname {Y : List (Expr ℝ)} {v : Env ℝ} {j : Nat} {e : Expr ℝ} {y : ℝ} (h : Y[j]? = some e)
    (he : e.eval v = some y) : (uEnv Y v).var (uname j) = y := by
  show ((subsLook Y (uname j)).bind (Expr.eval v)).getD 0 = y
  rw [subsLook_uname, h, Option.bind_some, he, Option.getD_some]

/-- The differentiable elements. -/
def SmAt (Y : List (Expr ℝ)) (x : DVar) (v : Env ℝ) (k : Nat) : Prop := ∃ e, Y[k]? = some e ∧ Smooth x v e

/-- The elements depending on the variable. -/
def OccAt (Y : List (Expr ℝ)) (x : DVar) (k : Nat) : Prop := ∃ e, Y[k]? = some e ∧ e.occurs x = true

/-- The substitution of the elements: the value is the value at the point `uEnv`. -/
theorem eval_subsAll {S : Fn ℝ → Nat → Prop} {Y : List (Expr ℝ)} {x : DVar} {v : Env ℝ} {e : Expr ℝ}
    (h : GoodS S (fun s => ∃ j, s = uname j ∧ SmAt Y x v j) (fun _ => False) e) :
    (subsAll Y e).eval v = e.eval (uEnv Y v) := by
  induction e using Expr.ind with
  | num n => rw [subsAll_num]; simp
  | par i => exact h.elim
  | var s =>
    obtain ⟨j, rfl, e, hY, hsm⟩ := h
    obtain ⟨y, hy⟩ := smooth_eval hsm
    rw [subsAll_uname hY, hy, Expr.eval_var, uEnv_uname hY hy]
  | fn f args ih =>
    rw [goodS_fn] at h
    rw [subsAll_fn]
    exact Expr.eval_fn_congr (v := v) (w := uEnv Y v) rfl f fun a ha => ih a ha (h.2 a ha)

/-- The function of the variable that an expression defines, with its derivative. -/
theorem exists_info (x : DVar) (v : Env ℝ) : ∃ info : Expr ℝ → ArgInfo,
    ∀ e, Smooth x v e → (info e).a = e ∧ DiffArgOk x v (info e) := by
  have : ∀ e, ∃ A : ArgInfo, Smooth x v e → A.a = e ∧ DiffArgOk x v A := by
    intro e
    by_cases h : Smooth x v e
    · obtain ⟨A, hA⟩ := smooth_argOk e h
      exact ⟨A, fun _ => hA⟩
    · exact ⟨⟨e, e, fun _ => 0, 0, false, False⟩, fun h' => absurd h' h⟩
  choose f hf using this
  exact ⟨f, hf⟩

theorem deriv_unique {x : DVar} {v : Env ℝ} {A : ArgInfo} (hA : DiffArgOk x v A) {G : ℝ → ℝ} {d : ℝ}
    (hG : ∀ᶠ t in 𝓝 (v.get x), A.a.eval (v.set x t) = some (G t)) (hd : HasDerivAt G d (v.get x)) : A.D = d := by
  refine hA.deriv.unique (hd.congr_of_eventuallyEq ?_)
  filter_upwards [hA.ev, hG] with t h1 h2
  rw [h1] at h2
  exact Option.some.inj h2

/-- The setting of the following theorems: a well-formed decomposition with its containers. -/
structure Setting (S : Fn ℝ → Nat → Prop) (ins : List DVar) (c outs : List (Expr ℝ)) : Prop where
  closed : GradClosed S
  nodup : ins.Nodup
  pre : ∃ d, c = ins.map ofDVar ++ d
  dcw : DcW S ins.length c
  outs : ∀ o ∈ outs, LeafOk c.length o

variable [FmtName ℝ] {S : Fn ℝ → Nat → Prop} {ins : List DVar} {c outs : List (Expr ℝ)} {rows : List (Row ℝ)}
variable {x : DVar} {v : Env ℝ}

/-- All the elements expressed by the inputs. -/
def full (n : Nat) (c outs : List (Expr ℝ)) : List (Expr ℝ) := expand n c ++ outs.map (subsAll (expand n c))

theorem full_lt {n k : Nat} (hk : k < c.length) : (full n c outs)[k]? = (expand n c)[k]? :=
  List.getElem?_append_left (by rw [expand_length]; exact hk)

theorem full_out {n j : Nat} : (full n c outs)[c.length + j]? = outs[j]?.map (subsAll (expand n c)) := by
  rw [full, List.getElem?_append_right (by rw [expand_length]; omega), expand_length]
  simp

theorem Setting.full_input (h : Setting S ins c outs) {k : Nat} (hk : k < ins.length) :
    (full ins.length c outs)[k]? = ins[k]?.map ofDVar := by
  obtain ⟨d, hd⟩ := h.pre
  have := h.dcw.len
  rw [full_lt (by omega), expand_input hk, hd, List.getElem?_append_left (by simpa using hk), List.getElem?_map]

theorem Setting.full_mid (h : Setting S ins c outs) {k : Nat} {f : Fn ℝ} {args : List (Expr ℝ)}
    (hk : c[k]? = some (.fn f args)) (hn : ins.length ≤ k) :
    (full ins.length c outs)[k]? = some (.fn f (args.map (subsAll (expand ins.length c)))) := by
  rw [full_lt (List.getElem?_eq_some_iff.1 hk).1, expand_elem h.dcw hk hn, subsAll_fn]

/-- The three kinds of elements. -/
theorem Setting.cases (h : Setting S ins c outs) (hr : adjRows ins.length outs.length (c ++ outs) = .ok rows) (k : Nat)
    (hk : k < c.length + outs.length) :
    (k < ins.length ∧ ∃ y, ins[k]? = some y ∧ (full ins.length c outs)[k]? = some (ofDVar y) ∧ dep rows k = []) ∨
    (ins.length ≤ k ∧ ∃ f args gs, c[k]? = some (.fn f args) ∧ S f args.length ∧ (∀ a ∈ args, LeafOk k a) ∧
      (full ins.length c outs)[k]? = some (.fn f (args.map (subsAll (expand ins.length c)))) ∧
      RowOk rows k f args gs) ∨
    (c.length ≤ k ∧ ((∃ m, (full ins.length c outs)[k]? = some (.num m) ∧ dep rows k = []) ∨
      ∃ l, l < c.length ∧ dep rows k = [l] ∧ adjFind rows k l = some (.dbl 1) ∧
        (full ins.length c outs)[k]? = (full ins.length c outs)[l]?)) := by
  obtain ⟨-, h1, h2, h3, h4⟩ := rows_ok h.dcw h.outs hr
  rcases Nat.lt_or_ge k ins.length with hlt | hge
  · left
    have : ins[k]? = some ins[k] := List.getElem?_eq_getElem hlt
    exact ⟨hlt, _, this, by rw [h.full_input hlt, this]; rfl, h1 k hlt⟩
  · rcases Nat.lt_or_ge k c.length with hlt' | hge'
    · right; left
      obtain ⟨f, args, he, hf, ha⟩ := h.dcw.elem k c[k] (List.getElem?_eq_getElem hlt') hge
      have hc : c[k]? = some (.fn f args) := by rw [List.getElem?_eq_getElem hlt', he]
      obtain ⟨gs, hgs⟩ := h2 k f args hge hc
      exact ⟨hge, f, args, gs, hc, hf, ha, h.full_mid hc hge, hgs⟩
    · right; right
      refine ⟨hge', ?_⟩
      obtain ⟨j, rfl⟩ := Nat.exists_eq_add_of_le hge'
      have hj : j < outs.length := by omega
      have ho : outs[j]? = some outs[j] := List.getElem?_eq_getElem hj
      have hleaf := h.outs _ (List.getElem_mem hj)
      cases hoj : outs[j] with
      | num m =>
        rw [hoj] at ho
        exact .inl ⟨m, by rw [full_out, ho]; rfl, h4 j m ho⟩
      | par i => rw [hoj] at hleaf; exact hleaf.elim
      | fn f as => rw [hoj] at hleaf; exact hleaf.elim
      | var s =>
        rw [hoj] at hleaf ho
        obtain ⟨l, hl, rfl⟩ := hleaf
        right
        obtain ⟨g1, g2⟩ := h3 j l ho
        refine ⟨l, hl, g1, g2, ?_⟩
        rw [full_out, ho, full_lt hl]
        have hX : (expand ins.length c)[l]? = some ((expand ins.length c)[l]'(by rw [expand_length]; exact hl)) :=
          List.getElem?_eq_getElem _
        rw [hX, Option.map_some, subsAll_uname hX]

/-- A leaf of an element: a number, or a variable standing for an earlier element. -/
theorem Setting.leaf (h : Setting S ins c outs) {k : Nat} (hk : k < c.length) {a : Expr ℝ} (ha : LeafOk k a) :
    (∃ m, a = .num m ∧ subsAll (expand ins.length c) a = .num m) ∨
    ∃ l e, l < k ∧ a = .var (uname l) ∧ (full ins.length c outs)[l]? = some e ∧ subsAll (expand ins.length c) a = e ∧
      e.isNum = false := by
  cases a with
  | num m => exact .inl ⟨m, rfl, rfl⟩
  | par i => exact ha.elim
  | fn f as => exact ha.elim
  | var s =>
    obtain ⟨l, hl, rfl⟩ := ha
    have hl' : l < c.length := hl.trans hk
    have hX : (expand ins.length c)[l]? = some ((expand ins.length c)[l]'(by rw [expand_length]; exact hl')) :=
      List.getElem?_eq_getElem _
    refine .inr ⟨l, _, hl, rfl, (full_lt hl').trans hX, subsAll_uname hX, ?_⟩
    generalize (expand ins.length c)[l]'(by rw [expand_length]; exact hl') = e at hX
    rcases Nat.lt_or_ge l ins.length with hli | hli
    · have := h.full_input hli
      rw [full_lt hl', hX] at this
      cases hy : ins[l]? with
      | none => rw [hy] at this; cases this
      | some y => rw [hy] at this; cases this; cases y <;> rfl
    · obtain ⟨f, args, he, -⟩ := h.dcw.elem l c[l] (List.getElem?_eq_getElem hl') hli
      have := h.full_mid (f := f) (args := args) (by rw [List.getElem?_eq_getElem hl', he]) hli
      rw [full_lt hl', hX] at this
      cases this
      rfl

open Classical in
/-- The chain rule for an element of the middle part. -/
theorem Setting.node (h : Setting S ins c outs) {info : Expr ℝ → ArgInfo}
    (hinfo : ∀ e, Smooth x v e → (info e).a = e ∧ DiffArgOk x v (info e)) {k : Nat} {f : Fn ℝ} {args gs : List (Expr ℝ)}
    (hk : k < c.length) (ha : ∀ a ∈ args, LeafOk k a) (hrow : RowOk rows k f args gs)
    (hsm : Smooth x v (.fn f (args.map (subsAll (expand ins.length c)))))
    (hocc : (Expr.fn f (args.map (subsAll (expand ins.length c)))).occurs x = true) :
    (∀ l ∈ dep rows k, OccAt (full ins.length c outs) x l →
      (sumE (collect (uname l) args gs)).eval (uEnv (full ins.length c outs) v) =
        some (adjVal rows (uEnv (full ins.length c outs) v) k l)) ∧
    (info (.fn f (args.map (subsAll (expand ins.length c))))).D =
      ((dep rows k).map fun l => if OccAt (full ins.length c outs) x l then
        ((full ins.length c outs)[l]?.elim 0 fun e => (info e).D) *
          adjVal rows (uEnv (full ins.length c outs) v) k l else 0).sum := by
  set X := expand ins.length c with hX
  set Y := full ins.length c outs with hY
  set w := uEnv Y v with hw
  set t₀ := v.get x with ht₀
  obtain ⟨hia, hi⟩ := hinfo _ hsm
  have hsm' := hsm
  rw [Smooth, SmoothL_iff] at hsm'
  obtain ⟨hargs, vals, hvals, hpt⟩ := hsm'
  have hargs' : ∀ a ∈ args, Smooth x v (subsAll X a) := fun a h => hargs _ (List.mem_map_of_mem h)
  -- the arguments
  let B : Expr ℝ → ArgInfo := fun a => { info (subsAll X a) with a := a }
  have hB : ∀ a ∈ args, CurveOk w t₀ (B a) := by
    intro a hm
    obtain ⟨g1, g2⟩ := hinfo _ (hargs' a hm)
    have hc := g2.curve
    refine ⟨?_, hc.deriv, hc.indep, hc.bool⟩
    have hval := hc.val
    rw [g1] at hval
    show a.eval w = some ((info (subsAll X a)).F t₀)
    rcases h.leaf hk (ha a hm) with ⟨m, rfl, he⟩ | ⟨l, e, -, rfl, hYl, he, -⟩
    · rw [← hX] at he
      rw [he] at hval ⊢
      rw [Expr.eval_num] at hval ⊢
      exact hval
    · rw [← hX] at he
      rw [he] at hval ⊢
      rw [Expr.eval_var, uEnv_uname hYl hval]
  have hnum : (∀ A ∈ args.map B, A.a.isNum = true) ↔ ∀ b ∈ args.map (subsAll X), b.isNum = true := by
    simp only [List.forall_mem_map]
    refine forall₂_congr fun a hm => ?_
    show a.isNum = true ↔ _
    rcases h.leaf hk (ha a hm) with ⟨m, rfl, he⟩ | ⟨l, e, -, rfl, hYl, he, hn⟩
    · rw [← hX] at he; rw [he]
    · rw [← hX] at he; rw [he, hn]; simp [Expr.isNum]
  have hvals' : vals = args.map fun a => (B a).F t₀ := by
    have : Expr.evalL v (args.map (subsAll X)) = some (args.map fun a => (B a).F t₀) := by
      refine evalL_map_some fun a hm => ?_
      obtain ⟨g1, g2⟩ := hinfo _ (hargs' a hm)
      have := g2.curve.val
      rw [g1] at this
      exact this
    rw [hvals] at this
    exact Option.some.inj this
  have hpt' : DiffPt f ((args.map B).map (ArgInfo.toVal t₀ (∀ A ∈ args.map B, A.a.isNum = true))) := by
    rw [hnum]
    convert hpt using 1
    rw [hvals', List.zipWith_map, List.zipWith_self, List.map_map]
    refine List.map_congr_left fun a hm => ?_
    obtain ⟨g1, g2⟩ := hinfo _ (hargs' a hm)
    show ArgVal.mk _ _ _ = ArgVal.mk _ _ _
    have e1 : (B a).dep = (subsAll X a).occurs x := by
      show (info (subsAll X a)).dep = _
      rw [g2.hdep, g1]
    have e2 : (B a).isB = (subsAll X a).isBool := by
      show (info (subsAll X a)).isB = _
      rw [g2.hisB, g1]
    rw [e1, e2]
  have hne : args ≠ [] := by
    rintro rfl
    simp [Expr.occurs, Expr.occursL] at hocc
  have hf : f ≠ .time := by
    rintro rfl
    cases args with
    | nil => exact hne rfl
    | cons a as =>
      rw [hvals'] at hpt
      simp [DiffPt] at hpt
  have hBl : ∀ A ∈ args.map B, CurveOk w t₀ A := by
    intro A hA
    obtain ⟨a, hm, rfl⟩ := List.mem_map.1 hA
    exact hB a hm
  obtain ⟨T, G, hT, hgrad, hent, hev, hder, -⟩ := node_ok hBl hf hpt'
  have hTa : T.map (fun p => p.1.a) = args := by
    have : T.map (fun p => p.1.a) = (T.map (·.1)).map (·.a) := by rw [List.map_map]; rfl
    rw [this, hT, List.map_map]
    show args.map (fun a => a) = args
    simp
  have hgs : gs = T.map (·.2.1) := by
    have h1 := hrow.grad
    have : (args.map B).map (·.a) = args := by
      rw [List.map_map]; show args.map (fun a => a) = args; simp
    rw [this, h1] at hgrad
    exact Res.ok.inj hgrad
  have hTB : ∀ p ∈ T, p.1.a ∈ args ∧ p.1 = B p.1.a := by
    intro p hp
    have : p.1 ∈ T.map (·.1) := List.mem_map_of_mem hp
    rw [hT] at this
    obtain ⟨a, hm, he⟩ := List.mem_map.1 this
    have e1 : p.1.a = a := by rw [← he]
    rw [e1]
    exact ⟨hm, he.symm⟩
  -- the derivative of the element
  have hD : (info (.fn f (args.map (subsAll X)))).D = (T.map fun p => p.2.2 * p.1.D).sum := by
    refine deriv_unique hi ?_ hder
    rw [hia]
    have h1 : ∀ᶠ t in 𝓝 t₀, ∀ a ∈ args, (subsAll X a).eval (v.set x t) = some ((B a).F t) := by
      refine eventually_list args fun a hm => ?_
      obtain ⟨g1, g2⟩ := hinfo _ (hargs' a hm)
      have := g2.ev
      rw [g1] at this
      exact this
    filter_upwards [h1, hev] with t h1 h2
    rw [Expr.eval_fn _ _ _ (.inl hf), evalL_map_some h1, Option.bind_some]
    rw [List.map_map] at h2
    exact h2
  have hcol : ∀ l, collect (uname l) args gs = (T.filter fun p => isV (uname l) p.1.a).map (·.2.1) := by
    intro l
    rw [hgs]
    conv_lhs => rw [← hTa]
    exact collect_filter (uname l) (fun p : ArgInfo × Expr ℝ × ℝ => p.1.a) (fun p => p.2.1) T
  -- the variables among the arguments
  have hvar : ∀ l ∈ dep rows k, ∃ e, Y[l]? = some e ∧ subsAll X (.var (uname l)) = e ∧ Smooth x v e := by
    intro l hl
    have hm := (hrow.mem l).1 hl
    rcases h.leaf (outs := outs) hk (ha _ hm) with ⟨m, he, -⟩ | ⟨l', e, -, he, hYl, hs, -⟩
    · cases he
    · have : l = l' := by injection he with he; exact uname_inj he
      subst this
      exact ⟨e, hYl, hs, hs ▸ hargs' _ hm⟩
  have hadj : ∀ l ∈ dep rows k, OccAt Y x l →
      (sumE (collect (uname l) args gs)).eval w = some ((T.filter fun p => isV (uname l) p.1.a).map (·.2.2)).sum := by
    intro l hl hol
    rw [hcol]
    refine eval_sumE_of (evalL_map_some fun p hp => ?_)
    rw [List.mem_filter, isV_iff] at hp
    obtain ⟨hp, hpa⟩ := hp
    refine (hent p hp).resolve_right ?_
    rintro ⟨hdep, -⟩
    obtain ⟨e, hYl, hse, hsme⟩ := hvar l hl
    obtain ⟨e', hYl', hoe⟩ := hol
    rw [hYl] at hYl'
    cases hYl'
    obtain ⟨g1, g2⟩ := hinfo _ hsme
    have : p.1.dep = (info e).dep := by
      rw [(hTB p hp).2, hpa]
      show (info (subsAll X (.var (uname l)))).dep = _
      rw [hse]
    rw [this, g2.hdep, g1, hoe] at hdep
    cases hdep
  have hadjV : ∀ l ∈ dep rows k, OccAt Y x l →
      adjVal rows w k l = ((T.filter fun p => isV (uname l) p.1.a).map (·.2.2)).sum := by
    intro l hl hol
    unfold adjVal
    rw [hrow.find l hl, Option.bind_some, hadj l hl hol, Option.getD_some]
  refine ⟨fun l hl hol => by rw [hadj l hl hol, hadjV l hl hol], ?_⟩
  rw [hD, sum_group (a := fun p : ArgInfo × Expr ℝ × ℝ => p.1.a) hrow.nodup]
  · congr 1
    refine List.map_congr_left fun l hl => ?_
    obtain ⟨e, hYl, hse, hsme⟩ := hvar l hl
    obtain ⟨g1, g2⟩ := hinfo _ hsme
    have hpD : ∀ p ∈ T.filter (fun p => isV (uname l) p.1.a), p.2.2 * p.1.D = p.2.2 * (info e).D := by
      intro p hp
      rw [List.mem_filter, isV_iff] at hp
      rw [(hTB p hp.1).2, hp.2]
      show _ * (info (subsAll X (.var (uname l)))).D = _
      rw [hse]
    rw [List.map_congr_left hpD, hYl, Option.elim_some]
    split_ifs with hol
    · rw [hadjV l hl hol, List.sum_map_mul_right, mul_comm]
    · have : (info e).D = 0 := by
        refine g2.D_zero ?_
        rw [g1]
        by_contra hc
        exact hol ⟨e, hYl, by simpa using hc⟩
      simp [this]
  · intro p hp
    obtain ⟨hm, hpB⟩ := hTB p hp
    rcases h.leaf (outs := outs) hk (ha _ hm) with ⟨m, he, hs⟩ | ⟨l, e, -, he, -⟩
    · left
      have hsmn := hargs' _ hm
      rw [← hX] at hs
      rw [hs] at hsmn
      obtain ⟨g1, g2⟩ := hinfo _ hsmn
      rw [hpB]
      show _ * (info (subsAll X p.1.a)).D = 0
      rw [hs, g2.D_zero (by rw [g1]; rfl), mul_zero]
    · exact .inr ⟨l, (hrow.mem l).2 (he ▸ hm), he⟩

end Heyoka.AD
