import Verif.AD.RegSubs

/-!
# The derivatives of the outputs of a decomposition
-/

set_option linter.unusedSectionVars false

namespace Heyoka.AD

open Heyoka.Sym Filter Topology

variable [DFunc]

variable [FmtName ℝ] {S : Fn ℝ → Nat → Prop} {ins : List DVar} {c outs : List (Expr ℝ)} {rows : List (Row ℝ)}
variable {x : DVar} {v : Env ℝ}

theorem Setting.dag (h : Setting S ins c outs) (hr : adjRows ins.length outs.length (c ++ outs) = .ok rows) :
    Dag rows (c.length + outs.length) := by
  have hlen := (rows_ok h.dcw h.outs hr).1
  have out : ∀ k, ¬ k < c.length + outs.length → dep rows k = [] := by
    intro k hk
    unfold dep
    rw [List.getElem?_eq_none (by omega)]
    rfl
  refine ⟨hlen, fun k l hl => ?_, fun k => ?_, fun k l hl => ?_⟩
  all_goals
    by_cases hk : k < c.length + outs.length
    swap
    · first
        | (rw [out k hk] at hl; cases hl)
        | (rw [out k hk]; exact List.nodup_nil)
  · rcases h.cases hr k hk with ⟨-, y, -, -, hd⟩ | ⟨-, f, args, gs, -, -, ha, -, hrow⟩ | ⟨hc, ⟨m, -, hd⟩ | ⟨l', hl', hd, -⟩⟩
    · rw [hd] at hl; cases hl
    · obtain ⟨j, hj, he⟩ := ha _ ((hrow.mem l).1 hl)
      rw [uname_inj he]; exact hj
    · rw [hd] at hl; cases hl
    · rw [hd, List.mem_singleton] at hl
      omega
  · rcases h.cases hr k hk with ⟨-, y, -, -, hd⟩ | ⟨-, f, args, gs, -, -, ha, -, hrow⟩ | ⟨hc, ⟨m, -, hd⟩ | ⟨l', hl', hd, -⟩⟩
    · rw [hd]; exact List.nodup_nil
    · exact hrow.nodup
    · rw [hd]; exact List.nodup_nil
    · rw [hd]; exact List.nodup_singleton _
  · rcases h.cases hr k hk with ⟨-, y, -, -, hd⟩ | ⟨-, f, args, gs, -, -, ha, -, hrow⟩ | ⟨hc, ⟨m, -, hd⟩ | ⟨l', hl', hd, hf, -⟩⟩
    · rw [hd] at hl; cases hl
    · exact ⟨_, hrow.find l hl⟩
    · rw [hd] at hl; cases hl
    · rw [hd, List.mem_singleton] at hl
      subst hl
      exact ⟨_, hf⟩

/-- The adjoints contain only the variables standing for the arguments. -/
theorem Setting.adj_good (h : Setting S ins c outs) (hr : adjRows ins.length outs.length (c ++ outs) = .ok rows)
    {Q : String → Prop} {k : Nat} (hQ : ∀ l ∈ dep rows k, Q (uname l)) {l : Nat} (hl : l ∈ dep rows k) {a : Expr ℝ}
    (ha : adjFind rows k l = some a) : GoodS S Q (fun _ => False) a := by
  have hk := (h.dag hr).lt_N hl
  rcases h.cases hr k hk with ⟨-, y, -, -, hd⟩ | ⟨-, f, args, gs, -, hf, hleaf, -, hrow⟩ | ⟨hc, ⟨m, -, hd⟩ | ⟨l', hl', hd, hf, -⟩⟩
  · rw [hd] at hl; cases hl
  · rw [hrow.find l hl] at ha
    cases ha
    refine sumE_goodS h.closed fun g hg => ?_
    have hgs : ∀ g ∈ gs, GoodS S Q (fun _ => False) g := by
      refine gradient_goodS h.closed hrow.grad hf fun b hb => ?_
      have := hleaf b hb
      cases b with
      | num n => trivial
      | par i => exact this.elim
      | fn f as => exact this.elim
      | var s =>
        obtain ⟨j, -, rfl⟩ := this
        exact hQ j ((hrow.mem j).2 hb)
    refine hgs g ?_
    clear * - hg
    induction args generalizing gs with
    | nil => simp [collect] at hg
    | cons a as ih =>
      cases gs with
      | nil => cases a <;> simp [collect] at hg
      | cons g' gs =>
        cases a with
        | var t =>
          rw [collect] at hg
          split_ifs at hg
          · rcases List.mem_cons.1 hg with rfl | hg
            · exact List.mem_cons_self
            · exact List.mem_cons_of_mem _ (ih _ hg)
          · exact List.mem_cons_of_mem _ (ih _ hg)
        | num n => rw [collect] at hg <;> first | exact List.mem_cons_of_mem _ (ih _ hg) | simp
        | par n => rw [collect] at hg <;> first | exact List.mem_cons_of_mem _ (ih _ hg) | simp
        | fn f as' => rw [collect] at hg <;> first | exact List.mem_cons_of_mem _ (ih _ hg) | simp
  · rw [hd] at hl; cases hl
  · rw [hd, List.mem_singleton] at hl
    subst hl
    rw [hf] at ha
    cases ha
    trivial

theorem Setting.closedG (h : Setting S ins c outs) (Q : String → Prop) (R : Nat → Prop) : Closed rows (GoodS S Q R) :=
  ⟨fun _ => trivial, fun _ hs => sumE_goodS h.closed hs, fun _ _ ha hb => mulE_goodS h.closed ha hb⟩

theorem info_var {info : Expr ℝ → ArgInfo} (hinfo : ∀ e, Smooth x v e → (info e).a = e ∧ DiffArgOk x v (info e)) :
    (info (ofDVar x)).D = 1 := by
  have hsm : Smooth x v (ofDVar x) := by cases x <;> trivial
  obtain ⟨h1, h2⟩ := hinfo _ hsm
  refine deriv_unique h2 (G := fun t => t) (.of_forall fun t => ?_) (hasDerivAt_id _)
  rw [h1]
  cases x <;> simp [ofDVar, Env.set]

theorem occurs_ofDVar {x y : DVar} : (ofDVar y : Expr ℝ).occurs x = true ↔ y = x := by
  cases y <;> simp [ofDVar, Expr.occurs] <;> exact eq_comm

/-- The chain rule for the elements of a decomposition. -/
theorem Setting.facts (h : Setting S ins c outs) (hr : adjRows ins.length outs.length (c ++ outs) = .ok rows)
    {info : Expr ℝ → ArgInfo} (hinfo : ∀ e, Smooth x v e → (info e).a = e ∧ DiffArgOk x v (info e)) {input : Nat}
    (hin : ins[input]? = some x) :
    Facts rows (c.length + outs.length) input (OccAt (full ins.length c outs) x) (SmAt (full ins.length c outs) x v)
      (fun k => (full ins.length c outs)[k]?.elim 0 fun e => (info e).D)
      (GoodS S (fun s => ∃ j, s = uname j ∧ SmAt (full ins.length c outs) x v j) fun _ => False)
      (uEnv (full ins.length c outs) v) := by
  have hlt : input < ins.length := (List.getElem?_eq_some_iff.1 hin).1
  have hlen := h.dcw.len
  have hYin : (full ins.length c outs)[input]? = some (ofDVar x) := by rw [h.full_input hlt, hin]; rfl
  have hsmooth : ∀ k, SmAt (full ins.length c outs) x v k → ∀ l ∈ dep rows k, SmAt (full ins.length c outs) x v l := by
    rintro k ⟨e, he, hsm⟩ l hl
    have hk := (h.dag hr).lt_N hl
    rcases h.cases hr k hk with ⟨-, y, -, -, hd⟩ | ⟨-, f, args, gs, hck, -, ha, hY, hrow⟩ | ⟨-, ⟨m, -, hd⟩ | ⟨l', -, hd, -, hY⟩⟩
    · rw [hd] at hl; cases hl
    · rw [he] at hY
      cases hY
      rw [Smooth, SmoothL_iff] at hsm
      have hm := (hrow.mem l).1 hl
      have hkc : k < c.length := (List.getElem?_eq_some_iff.1 hck).1
      rcases h.leaf (outs := outs) hkc (ha _ hm) with ⟨m, hv, -⟩ | ⟨l', e, -, hv, hYl, hs, -⟩
      · cases hv
      · have : l = l' := by injection hv with hv; exact uname_inj hv
        subst this
        exact ⟨e, hYl, hs ▸ hsm.1 _ (List.mem_map_of_mem hm)⟩
    · rw [hd] at hl; cases hl
    · rw [hd, List.mem_singleton] at hl
      subst hl
      exact ⟨e, hY ▸ he, hsm⟩
  refine
    { toDag := h.dag hr
      closed := h.closedG _ _
      smooth := hsmooth
      inp := (rows_ok h.dcw h.outs hr).2.1 input hlt
      inpN := by omega
      occ := fun k hk => ?_
      one := by simp only [hYin, Option.elim_some]; exact info_var hinfo
      zero := ?_
      adj := ?_
      chain := ?_ }
  · rcases h.cases hr k hk with ⟨hki, y, hy, hY, hd⟩ | ⟨hki, f, args, gs, hck, -, ha, hY, hrow⟩ | ⟨hck, ⟨m, hY, hd⟩ | ⟨l', -, hd, -, hY⟩⟩
    · simp only [OccAt, hY, hd, Option.some.injEq, exists_eq_left', occurs_ofDVar, List.not_mem_nil, false_and,
        exists_false, or_false]
      constructor
      · rintro rfl
        exact (List.nodup_iff_injective_get.1 h.nodup (a₁ := ⟨k, hki⟩) (a₂ := ⟨input, hlt⟩)
          (by
            rw [List.getElem?_eq_getElem hki] at hy
            rw [List.getElem?_eq_getElem hlt] at hin
            simp only [List.get_eq_getElem]
            rw [Option.some.inj hy, Option.some.inj hin])) |> fun e => by simpa using e
      · rintro rfl
        rw [hin] at hy
        exact (Option.some.inj hy).symm
    · have hkc : k < c.length := (List.getElem?_eq_some_iff.1 hck).1
      have hne : k ≠ input := by omega
      simp only [hne, false_or]
      constructor
      · rintro ⟨e, he, ho⟩
        rw [hY] at he
        cases he
        rw [Expr.occurs, Expr.occursL_eq_any, List.any_map, List.any_eq_true] at ho
        obtain ⟨a, hm, ho⟩ := ho
        rcases h.leaf (outs := outs) hkc (ha _ hm) with ⟨m, hv, hs⟩ | ⟨l', e, -, rfl, hYl, hs, -⟩
        · rw [Function.comp_apply, hs] at ho; cases ho
        · rw [Function.comp_apply, hs] at ho
          exact ⟨l', (hrow.mem l').2 hm, e, hYl, ho⟩
      · rintro ⟨l, hl, e, he, ho⟩
        refine ⟨_, hY, ?_⟩
        rw [Expr.occurs, Expr.occursL_eq_any, List.any_map, List.any_eq_true]
        have hm := (hrow.mem l).1 hl
        refine ⟨_, hm, ?_⟩
        rcases h.leaf (outs := outs) hkc (ha _ hm) with ⟨m, hv, hs⟩ | ⟨l', e', -, hv, hYl, hs, -⟩
        · cases hv
        · have : l = l' := by injection hv with hv; exact uname_inj hv
          subst this
          rw [he] at hYl
          cases hYl
          rw [Function.comp_apply, hs]
          exact ho
    · have hne : k ≠ input := by omega
      simp [OccAt, hY, hd, hne, Expr.occurs]
    · have hne : k ≠ input := by omega
      simp only [OccAt, hY, hd, hne, List.mem_singleton, exists_eq_left, false_or]
  · rintro k ⟨e, he, hsm⟩ hno
    obtain ⟨h1, h2⟩ := hinfo _ hsm
    simp only [he, Option.elim_some]
    refine h2.D_zero ?_
    rw [h1]
    by_contra hc
    exact hno ⟨e, he, by simpa using hc⟩
  · rintro k hk hsk hok l hl hol
    have hgood : ∀ a, adjFind rows k l = some a →
        GoodS S (fun s => ∃ j, s = uname j ∧ SmAt (full ins.length c outs) x v j) (fun _ => False) a :=
      fun a ha => h.adj_good hr (fun m hm => ⟨m, rfl, hsmooth k hsk m hm⟩) hl ha
    obtain ⟨e, he, hsm⟩ := hsk
    obtain ⟨e', he', ho⟩ := hok
    rw [he] at he'
    cases he'
    rcases h.cases hr k hk with ⟨-, y, -, -, hd⟩ | ⟨-, f, args, gs, hck, -, ha, hY, hrow⟩ | ⟨-, ⟨m, -, hd⟩ | ⟨l', -, hd, hf, hY⟩⟩
    · rw [hd] at hl; cases hl
    · rw [he] at hY
      cases hY
      refine ⟨_, hrow.find l hl, hgood _ (hrow.find l hl), ?_⟩
      exact (h.node hinfo (List.getElem?_eq_some_iff.1 hck).1 ha hrow hsm ho).1 l hl hol
    · rw [hd] at hl; cases hl
    · rw [hd, List.mem_singleton] at hl
      subst hl
      refine ⟨_, hf, hgood _ hf, ?_⟩
      simp [adjVal, hf, Expr.dbl]
  · rintro k hk ⟨e, he, hsm⟩ ⟨e', he', ho⟩ hne
    rw [he] at he'
    cases he'
    rcases h.cases hr k hk with ⟨hki, y, hy, hY, hd⟩ | ⟨-, f, args, gs, hck, -, ha, hY, hrow⟩ | ⟨-, ⟨m, hY, hd⟩ | ⟨l', -, hd, hf, hY⟩⟩
    · exfalso
      rw [he] at hY
      cases hY
      rw [occurs_ofDVar] at ho
      subst ho
      refine hne ?_
      have := List.nodup_iff_injective_get.1 h.nodup (a₁ := ⟨k, hki⟩) (a₂ := ⟨input, hlt⟩)
          (by
            rw [List.getElem?_eq_getElem hki] at hy
            rw [List.getElem?_eq_getElem hlt] at hin
            simp only [List.get_eq_getElem]
            rw [Option.some.inj hy, Option.some.inj hin])
      simpa using this
    · rw [he] at hY
      cases hY
      rw [he, Option.elim_some]
      convert (h.node hinfo (List.getElem?_eq_some_iff.1 hck).1 ha hrow hsm ho).2
    · rw [he] at hY
      cases hY
      cases ho
    · have hol : OccAt (full ins.length c outs) x l' := ⟨e, hY ▸ he, ho⟩
      simp only [hd, List.map_cons, List.map_nil, List.sum_cons, List.sum_nil, if_pos hol, add_zero, hY]
      simp [adjVal, hf, Expr.dbl]

/-- The regular elements. -/
def RegAt (Y : List (Expr ℝ)) (v : Env ℝ) (k : Nat) : Prop := ∃ e, Y[k]? = some e ∧ Reg v e

/-- The expressions that become regular when the elements are substituted. -/
def RegG (S : Fn ℝ → Nat → Prop) (n : Nat) (c outs : List (Expr ℝ)) (v : Env ℝ) (d : Expr ℝ) : Prop :=
  GoodS S (fun s => ∃ j, j < c.length ∧ s = uname j ∧ RegAt (full n c outs) v j) (fun _ => False) d ∧
    Reg v (subsAll (full n c outs) d)

theorem Setting.nonum (h : Setting S ins c outs) :
    NoNum (full ins.length c outs) fun s => ∃ j, j < c.length ∧ s = uname j ∧ RegAt (full ins.length c outs) v j := by
  rintro s ⟨j, hj, rfl, e, he, -⟩
  rw [subsAll_uname he]
  rcases Nat.lt_or_ge j ins.length with hlt | hge
  · rw [h.full_input hlt, List.getElem?_eq_getElem hlt] at he
    cases he
    cases ins[j] <;> rfl
  · obtain ⟨f, args, hc, -⟩ := h.dcw.elem j c[j] (List.getElem?_eq_getElem hj) hge
    rw [h.full_mid (f := f) (args := args) (by rw [List.getElem?_eq_getElem hj, hc]) hge] at he
    cases he
    rfl

theorem RegG.varsIn {n : Nat} {d : Expr ℝ} (h : RegG S n c outs v d) :
    VarsIn (fun s => ∃ j, j < c.length ∧ s = uname j ∧ RegAt (full n c outs) v j) d :=
  h.1.mono (fun _ _ _ => trivial) (fun _ _ h => h) fun _ _ h => h.elim

theorem Setting.regClosed (h : Setting S ins c outs) : Closed rows (RegG S ins.length c outs v) := by
  refine ⟨fun x => ⟨trivial, (RV.dbl x).1⟩, fun es hes => ⟨sumE_goodS h.closed fun e he => (hes e he).1, ?_⟩,
    fun a b ha hb => ⟨mulE_goodS h.closed ha.1 hb.1, ?_⟩⟩
  · rw [h.nonum.sumE fun e he => (hes e he).varsIn]
    refine reg_sumE fun e he => ?_
    obtain ⟨d, hd, rfl⟩ := List.mem_map.1 he
    exact (hes d hd).2
  · rw [h.nonum.mulE ha.varsIn hb.varsIn]
    obtain ⟨y, hy⟩ := ha.2.value
    obtain ⟨z, hz⟩ := hb.2.value
    exact (hy.mul hz).1

theorem mem_collect {s : String} {args : List (Expr ℝ)} : ∀ {gs : List (Expr ℝ)} {g : Expr ℝ}, g ∈ collect s args gs →
    ∃ i : Nat, args[i]? = some (.var s) ∧ gs[i]? = some g := by
  induction args with
  | nil => intro gs g hg; simp [collect] at hg
  | cons a as ih =>
    intro gs g hg
    cases gs with
    | nil => cases a <;> simp [collect] at hg
    | cons g' gs =>
      have tail : g ∈ collect s as gs → ∃ i : Nat, (a :: as)[i]? = some (.var s) ∧ (g' :: gs)[i]? = some g := by
        intro h
        obtain ⟨i, h1, h2⟩ := ih h
        exact ⟨i + 1, by simpa using h1, by simpa using h2⟩
      cases a with
      | var t =>
        rw [collect] at hg
        split_ifs at hg with hts
        · rcases List.mem_cons.1 hg with rfl | hg
          · subst hts; exact ⟨0, rfl, rfl⟩
          · exact tail hg
        · exact tail hg
      | num n => rw [collect] at hg <;> first | exact tail hg | simp
      | par n => rw [collect] at hg <;> first | exact tail hg | simp
      | fn f as' => rw [collect] at hg <;> first | exact tail hg | simp

/-- The chain rule restricted to the regular elements: all the expressions are regular. -/
theorem Setting.regFacts (h : Setting S ins c outs) (hr : adjRows ins.length outs.length (c ++ outs) = .ok rows)
    {info : Expr ℝ → ArgInfo} (hinfo : ∀ e, Smooth x v e → (info e).a = e ∧ DiffArgOk x v (info e)) {input : Nat}
    (hin : ins[input]? = some x) :
    Facts rows (c.length + outs.length) input (OccAt (full ins.length c outs) x) (RegAt (full ins.length c outs) v)
      (fun k => (full ins.length c outs)[k]?.elim 0 fun e => (info e).D)
      (RegG S ins.length c outs v) (uEnv (full ins.length c outs) v) := by
  have F := h.facts hr hinfo hin
  have hle : ∀ k, RegAt (full ins.length c outs) v k → SmAt (full ins.length c outs) x v k :=
    fun k ⟨e, he, hreg⟩ => ⟨e, he, hreg.smooth x⟩
  have hreg : ∀ k, RegAt (full ins.length c outs) v k → ∀ l ∈ dep rows k, l < c.length ∧
      RegAt (full ins.length c outs) v l := by
    rintro k ⟨e, he, hsm⟩ l hl
    have hk := (h.dag hr).lt_N hl
    rcases h.cases hr k hk with ⟨-, y, -, -, hd⟩ | ⟨-, f, args, gs, hck, -, ha, hY, hrow⟩ | ⟨-, ⟨m, -, hd⟩ | ⟨l', hl', hd, -, hY⟩⟩
    · rw [hd] at hl; cases hl
    · rw [he] at hY
      cases hY
      rw [Reg, RegL_iff] at hsm
      have hm := (hrow.mem l).1 hl
      have hkc : k < c.length := (List.getElem?_eq_some_iff.1 hck).1
      rcases h.leaf (outs := outs) hkc (ha _ hm) with ⟨m, hv, -⟩ | ⟨l', e, hlt, hv, hYl, hs, -⟩
      · cases hv
      · have : l = l' := by injection hv with hv; exact uname_inj hv
        subst this
        exact ⟨by omega, e, hYl, hs ▸ hsm.1 _ (List.mem_map_of_mem hm)⟩
    · rw [hd] at hl; cases hl
    · rw [hd, List.mem_singleton] at hl
      subst hl
      exact ⟨hl', e, hY ▸ he, hsm⟩
  refine
    { toDag := F.toDag
      closed := h.regClosed
      smooth := fun k hk l hl => (hreg k hk l hl).2
      inp := F.inp
      inpN := F.inpN
      occ := F.occ
      one := F.one
      zero := fun k hk => F.zero k (hle k hk)
      adj := ?_
      chain := fun k hk hk' => F.chain k hk (hle k hk') }
  intro k hk hrk hok l hl hol
  obtain ⟨a, ha, -, hev⟩ := F.adj k hk (hle k hrk) hok l hl hol
  have hgood := h.adj_good (Q := fun s => ∃ j, j < c.length ∧ s = uname j ∧ RegAt (full ins.length c outs) v j) hr
    (fun m hm => ⟨m, (hreg k hrk m hm).1, rfl, (hreg k hrk m hm).2⟩) hl ha
  refine ⟨a, ha, ⟨hgood, ?_⟩, hev⟩
  have hsub := hreg k hrk
  obtain ⟨e, he, hre⟩ := hrk
  rcases h.cases hr k hk with ⟨-, y, -, -, hd⟩ | ⟨-, f, args, gs, hck, hf, hleaf, hY, hrow⟩ | ⟨-, ⟨m, -, hd⟩ | ⟨l', -, hd, hfd, hY⟩⟩
  · rw [hd] at hl; cases hl
  · rw [he] at hY
    cases hY
    rw [hrow.find l hl] at ha
    cases ha
    have hkc : k < c.length := (List.getElem?_eq_some_iff.1 hck).1
    -- the arguments are variables standing for regular elements
    have hargs : ∀ b ∈ args, VarsIn (fun s => ∃ j, j < c.length ∧ s = uname j ∧ RegAt (full ins.length c outs) v j) b := by
      intro b hb
      have := hleaf b hb
      cases b with
      | num n => trivial
      | par i => exact this.elim
      | fn f as => exact this.elim
      | var s =>
        obtain ⟨j, -, rfl⟩ := this
        obtain ⟨h1, h2⟩ := hsub j ((hrow.mem j).2 hb)
        exact ⟨j, h1, rfl, h2⟩
    have hmap : args.map (subsAll (expand ins.length c)) = args.map (subsAll (full ins.length c outs)) := by
      refine List.map_congr_left fun b hb => ?_
      refine subsAll_leaf (i := k) (fun j hj => ?_) (hleaf b hb)
      rw [full_lt (by omega)]
    rw [hmap] at hre
    have hgrad := gradient_reg (h.nonum.gradient hrow.grad hargs) hre
    have hgs : ∀ g ∈ gs, VarsIn (fun s => ∃ j, j < c.length ∧ s = uname j ∧ RegAt (full ins.length c outs) v j) g :=
      gradient_goodS closedTrue hrow.grad trivial hargs
    have hcol : ∀ g ∈ collect (uname l) args gs,
        VarsIn (fun s => ∃ j, j < c.length ∧ s = uname j ∧ RegAt (full ins.length c outs) v j) g := by
      intro g hg
      obtain ⟨i, -, h2⟩ := mem_collect hg
      exact hgs g (List.mem_of_getElem? h2)
    rw [h.nonum.sumE hcol]
    · refine reg_sumE fun g' hg' => ?_
      obtain ⟨g, hg, rfl⟩ := List.mem_map.1 hg'
      obtain ⟨i, h1, h2⟩ := mem_collect hg
      have hi := (List.getElem?_eq_some_iff.1 h1).1
      have hi' := (List.getElem?_eq_some_iff.1 h2).1
      have := (List.forall₂_iff_get.1 hgrad).2 i (by simpa using hi) (by simpa using hi')
      simp only [List.get_eq_getElem, List.getElem_map] at this
      rw [(List.getElem?_eq_some_iff.1 h1).2, (List.getElem?_eq_some_iff.1 h2).2] at this
      exact this (h.nonum _ (by
        have := hargs _ (List.mem_of_getElem? h1)
        exact this))
  · rw [hd] at hl; cases hl
  · rw [hd, List.mem_singleton] at hl
    subst hl
    rw [hfd] at ha
    cases ha
    exact (RV.dbl _).1

/-- `e'` is the derivative of `e` with respect to `x`: wherever `e` is differentiable. It is regular at
the regular points of `e`. -/
def IsDeriv (x : DVar) (e e' : Expr ℝ) : Prop :=
  (∀ v, Smooth x v e → ∃ (F : ℝ → ℝ) (D : ℝ), (∀ᶠ t in 𝓝 (v.get x), e.eval (v.set x t) = some (F t)) ∧
    HasDerivAt F D (v.get x) ∧ e'.eval v = some D) ∧ ∀ v, Reg v e → Reg v e'

theorem isDeriv_zero {e : Expr ℝ} (h : e.occurs x = false) : IsDeriv x e (.dbl 0) := by
  refine ⟨fun v hs => ?_, fun v _ => (RV.dbl _).1⟩
  obtain ⟨A, rfl, hA⟩ := smooth_argOk e hs
  refine ⟨A.F, 0, hA.ev, hA.D_zero h ▸ hA.deriv, by simp [Expr.dbl]⟩

/-- An expression for the derivative of an output in terms of the elements is turned into the
derivative of the component. -/
theorem isDeriv_of {e o d : Expr ℝ} {k : Nat} (hk : outs[k]? = some o)
    (ho : OutNrm (ins.map ofDVar) c o (prep ins e)) (hsub : subsAll (ins.map ofDVar) (prep ins e) = split2 e)
    (hd : ∀ v (info : Expr ℝ → ArgInfo), (∀ e, Smooth x v e → (info e).a = e ∧ DiffArgOk x v (info e)) →
      SmAt (full ins.length c outs) x v (c.length + k) →
      GoodS S (fun s => ∃ j, s = uname j ∧ SmAt (full ins.length c outs) x v j) (fun _ => False) d ∧
        d.eval (uEnv (full ins.length c outs) v) =
          some ((full ins.length c outs)[c.length + k]?.elim 0 fun e => (info e).D))
    (hdr : ∀ v (info : Expr ℝ → ArgInfo), (∀ e, Smooth x v e → (info e).a = e ∧ DiffArgOk x v (info e)) →
      RegAt (full ins.length c outs) v (c.length + k) → RegG S ins.length c outs v d) :
    IsDeriv x e (subsAll (full ins.length c outs) d) := by
  have hnrm : nrm (subsAll (expand ins.length c) o) = nrm (split2 e) := by
    have := ho.2
    rw [hsub, List.length_map] at this
    exact this
  have hY : (full ins.length c outs)[c.length + k]? = some (subsAll (expand ins.length c) o) := by
    rw [full_out, hk]; rfl
  refine ⟨fun v hs => ?_, fun v hs => ?_⟩
  swap
  · obtain ⟨info, hinfo⟩ := exists_info x v
    refine (hdr v info hinfo ⟨_, hY, ?_⟩).2
    rw [← nrm_reg, hnrm, nrm_reg]
    exact split2_reg hs
  obtain ⟨A, hAa, hA⟩ := smooth_argOk e hs
  obtain ⟨info, hinfo⟩ := exists_info x v
  have hsm : Smooth x v (subsAll (expand ins.length c) o) := by
    rw [← nrm_smooth, hnrm, nrm_smooth]
    exact split2_smooth hs
  obtain ⟨hG, hev⟩ := hd v info hinfo ⟨_, hY, hsm⟩
  obtain ⟨g1, g2⟩ := hinfo _ hsm
  refine ⟨A.F, A.D, by rw [← hAa]; exact hA.ev, hA.deriv, ?_⟩
  rw [eval_subsAll hG, hev, hY, Option.elim_some]
  congr 1
  refine deriv_unique g2 (G := A.F) ?_ hA.deriv
  filter_upwards [hA.ev] with t ht
  rw [g1, ← nrm_eval, hnrm, nrm_eval]
  rw [hAa] at ht
  exact split2_keeps _ _ _ ht

end Heyoka.AD
