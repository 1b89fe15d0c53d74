import Verif.AD.Raw
import Verif.AD.Syn

/-!
# The loop over the orders
-/

set_option linter.unusedSectionVars false

namespace Heyoka.AD

open Heyoka.Sym Heyoka.Dtens

variable [DFunc]

variable [FmtName ℝ] {S : Fn ℝ → Nat → Prop} {args : List DVar} {nouts cur : Nat} {m : List (SIdx × Expr ℝ)}

/-! ### The derivatives of the last order -/

/-- The search for the derivatives of the last order. -/
theorem searchMap_spec (hc : Complete ⟨m, args.length⟩ nouts cur) :
    ∃ b, searchMap m (0, if cur = 0 then [] else [(0, cur)]) = .ok b ∧ b < m.length ∧
      m.drop b = m.filter fun p => degree p.1.2 == cur := by
  have hv : (if cur = 0 then [] else [(0, cur)]) = single 0 cur := by
    unfold single
    by_cases h : cur = 0 <;> simp [h]
  rw [hv]
  have hm : SortedMap m := hc.map
  obtain ⟨i, hi, hik, -⟩ := hc.hasSingle (c := 0) (a := 0) (o := cur) hc.nouts_pos hc.nargs_pos le_rfl
  simp only at hi hik
  obtain ⟨r, hr, hrl, hless⟩ := lbLoop_ok hm (v := (0, single 0 cur)) (sane_single _ _)
    (by rw [degree_single]; exact hc.order_fits) m.length 0 (by omega) (by intro i _ h; omega) (by intro i h h'; omega)
  have hri : r = i := by
    have h1 : ¬ i < r := by
      rw [← hless i hi, hik]; exact Less.irrefl _
    have h2 : ¬ r < i := by
      intro h
      have h3 : Less m[r].1 m[i].1 := (hm.lt_iff (by omega) hi).2 h
      rw [hik] at h3
      have := (hless r (by omega)).1 h3
      omega
    omega
  subst hri
  refine ⟨r, ?_, hi, ?_⟩
  · unfold searchMap
    rw [hr, Res.bind_ok]
    simp only [List.getElem?_eq_getElem hi, if_pos hik]
  · have hvalid : ∀ k (hk : k < m.length), 0 ≤ m[k].1.1 ∧ Sane m[k].1.2 ∧ degree m[k].1.2 ≤ cur := by
      intro k hk
      have := (hc.keys m[k].1).1 ⟨_, List.getElem_mem hk, rfl⟩
      exact ⟨Nat.zero_le _, this.2.1, this.2.2.2⟩
    have hdeg : ∀ k (hk : k < m.length), degree m[k].1.2 = cur ↔ r ≤ k := by
      intro k hk
      constructor
      · intro hd
        by_contra hlt
        have h1 := (hless k hk).2 (by omega)
        rw [← hd] at h1
        exact not_less_first (hvalid k hk).2.1 (Nat.zero_le _) h1
      · intro hle
        by_contra hne
        have hlt : degree m[k].1.2 < cur := by have := (hvalid k hk).2.2; omega
        have : Less m[k].1 (0, single 0 cur) := by
          unfold Less
          rw [degree_single]
          exact .inl hlt
        have := (hless k hk).1 this
        omega
    conv_rhs => rw [← List.take_append_drop r m]
    rw [List.filter_append, List.filter_eq_nil_iff.2, List.nil_append, List.filter_eq_self.2]
    · intro p hp
      obtain ⟨k, hk, rfl⟩ := List.mem_iff_getElem.1 hp
      rw [List.length_drop] at hk
      rw [List.getElem_drop, beq_iff_eq, hdeg _ (by omega)]
      omega
    · intro p hp
      obtain ⟨k, hk, rfl⟩ := List.mem_iff_getElem.1 hp
      rw [List.length_take] at hk
      rw [List.getElem_take, beq_iff_eq, hdeg _ (by omega)]
      omega

theorem level_of_complete (hc : Complete ⟨m, args.length⟩ nouts cur) :
    Level nouts args.length cur (m.filter fun p => degree p.1.2 == cur) := by
  refine ⟨hc.sorted.filter _, fun v => ?_⟩
  constructor
  · rintro ⟨p, hp, rfl⟩
    obtain ⟨hp, hd⟩ := List.mem_filter.1 hp
    have := (hc.keys p.1).1 ⟨p, hp, rfl⟩
    exact ⟨this.1, this.2.1, this.2.2.1, by simpa using hd⟩
  · rintro ⟨h1, h2, h3, h4⟩
    obtain ⟨p, hp, rfl⟩ := (hc.keys v).2 ⟨h1, h2, h3, h4.le⟩
    exact ⟨p, List.mem_filter.2 ⟨hp, by simpa using h4⟩, rfl⟩

/-! ### One order -/

/-- The new derivatives of one order. -/
structure NewOk (S : Fn ℝ → Nat → Prop) (args : List DVar) (nouts cur : Nat) (prev news : List (SIdx × Expr ℝ)) : Prop where
  level : Level nouts args.length (cur + 1) news
  good : ∀ q ∈ news, GoodS S (fun _ => True) (fun _ => True) q.2
  src : ∀ q ∈ news, ∃ p ∈ prev, ∃ (j : Nat) (x : DVar), args[j]? = some x ∧ q.1 = (p.1.1, addIdx j p.1.2) ∧
    (∀ r ∈ p.1.2, j ≤ r.1) ∧ IsDeriv x p.2 q.2
  syn : ∀ (S0 : Fn ℝ → Nat → Prop) (R : Nat → Prop) (A : List DVar) (D : Nat → Fn ℝ → Prop), SynOk S0 A D →
    (∀ p ∈ prev, Cl S0 R (A.map ofDVar) (D cur) p.2) → ∀ q ∈ news, Cl S0 R (A.map ofDVar) (D (cur + 1)) q.2

theorem newOk_of_raw {ins : List DVar} {c outs : List (Expr ℝ)} {rows : List (Row ℝ)} {prev raw : List (SIdx × Expr ℝ)}
    (h : Ctx S ins c outs rows prev) (hl : Level nouts args.length cur prev) (hcur : cur + 1 < 2 ^ 32)
    (hraw : Raw (fun p x j q => News rows ins.length c outs p x j q) args prev raw) :
    ∃ l, sortKeys raw = .ok l ∧ NewOk S args nouts cur prev (l.map fun p => (p.1, subsAll (full ins.length c outs) p.2)) := by
  have hkey : ∀ q ∈ raw, q.1.1 < nouts ∧ Sane q.1.2 ∧ (∀ r ∈ q.1.2, r.1 < args.length) ∧ degree q.1.2 = cur + 1 := by
    intro q hq
    obtain ⟨p, hp, j, x, hx, hn, -⟩ := hraw.src q hq
    obtain ⟨h1, h2, h3, h4⟩ := hl.ok hp
    rw [hn.1]
    refine ⟨h1, addIdx_sane h2, fun r hr => ?_, by rw [addIdx_degree, h4]⟩
    rcases addIdx_mem hr with h5 | ⟨r', hr', h5⟩
    · rw [h5]; exact (List.getElem?_eq_some_iff.1 hx).1
    · rw [← h5]; exact h3 r' hr'
  obtain ⟨l, hs, hperm, hsort⟩ := sortKeys_ok (fun q hq => (hkey q hq).2.1) (fun q hq => by rw [(hkey q hq).2.2.2]; exact hcur) hraw.nodup
  refine ⟨l, hs, ⟨?_, fun v => ?_⟩, fun q hq => ?_, fun q hq => ?_, fun S0 R A D hsyn hprev q hq => ?_⟩
  · rw [List.pairwise_map]
    exact hsort.sorted
  · constructor
    · rintro ⟨q, hq, rfl⟩
      obtain ⟨q', hq', rfl⟩ := List.mem_map.1 hq
      exact hkey q' (hperm.mem_iff.1 hq')
    · rintro ⟨h1, h2, h3, h4⟩
      obtain ⟨j, α, he, hα, -, hsub, ⟨r, hr, hrj⟩, -⟩ := exists_addIdx h2 (by rintro h; rw [h] at h4; simp [degree] at h4)
      obtain ⟨p, hp, hpk⟩ := (hl.keys (v.1, α)).2 ⟨h1, hα, fun q hq => by
        obtain ⟨r, hr, h5⟩ := hsub q hq
        rw [← h5]; exact h3 r hr, by
        have := congrArg degree he
        rw [addIdx_degree] at this
        simp only; omega⟩
      obtain ⟨q, hq, hqk⟩ := hraw.cover p hp j (by rw [← hrj]; exact h3 r hr)
      refine ⟨_, List.mem_map.2 ⟨q, hperm.mem_iff.2 hq, rfl⟩, ?_⟩
      rw [hqk, hpk, ← he]
  · obtain ⟨q', hq', rfl⟩ := List.mem_map.1 hq
    obtain ⟨p, hp, j, x, hx, hn, -⟩ := hraw.src q' (hperm.mem_iff.1 hq')
    exact h.subs_good (hn.2.1 _ (h.closedG _ _) h.adj_G0)
  · obtain ⟨q', hq', rfl⟩ := List.mem_map.1 hq
    obtain ⟨p, hp, j, x, hx, hn, hmin⟩ := hraw.src q' (hperm.mem_iff.1 hq')
    exact ⟨p, hp, j, x, hx, hn.1, hmin, hn.2.2⟩
  · obtain ⟨q', hq', rfl⟩ := List.mem_map.1 hq
    obtain ⟨p, hp, j, x, hx, hn, -⟩ := hraw.src q' (hperm.mem_iff.1 hq')
    exact h.gen_cl hsyn hprev hn.2.1

/-- The derivatives of one order: every result is right, and there is one if enough iterations are
given and the sizes fit in 32 bits. -/
theorem derivs_spec {ins : List DVar} {c outs : List (Expr ℝ)} {prev : List (SIdx × Expr ℝ)} {fuel : Nat}
    (hw : DcW S ins.length c) (ho : ∀ o ∈ outs, LeafOk c.length o) (hlen : outs.length = prev.length)
    (hctx : ∀ rows, adjRows ins.length outs.length (c ++ outs) = .ok rows → Ctx S ins c outs rows prev)
    (hn : 0 < nouts) (hl : Level nouts args.length cur prev) (hcur : cur + 1 < 2 ^ 32) :
    (∀ news, derivs fuel args (cur == 0) ins.length prev (c ++ outs) = some (.ok news) → NewOk S args nouts cur prev news) ∧
    ((∀ f k, S f k → hasGrad f k) → c.length + outs.length ≤ fuel → c.length + outs.length ≤ 2 ^ 32 →
      ∃ news, derivs fuel args (cur == 0) ins.length prev (c ++ outs) = some (.ok news)) := by
  have hsm := subsMap_ok hw ho
  rw [hlen] at hsm hctx
  cases hrows : adjRows ins.length prev.length (c ++ outs) with
  | throw =>
    refine ⟨fun news h => ?_, fun hS _ h32 => ?_⟩
    · rw [derivs, hrows] at h; cases h
    · obtain ⟨rows, hr⟩ := adjRows_total hS hw ho h32
      rw [hlen, hrows] at hr; cases hr
  | ub =>
    refine ⟨fun news h => ?_, fun hS _ h32 => ?_⟩
    · rw [derivs, hrows] at h; cases h
    · obtain ⟨rows, hr⟩ := adjRows_total hS hw ho h32
      rw [hlen, hrows] at hr; cases hr
  | ok rows =>
    have h := hctx rows hrows
    have hrep : (List.replicate (c ++ outs).length (Expr.dbl 0 : Expr ℝ)).length = c.length + outs.length := by simp
    have hrepG : ∀ e ∈ List.replicate (c ++ outs).length (Expr.dbl 0 : Expr ℝ), Gen rows e := by
      intro e he
      rw [List.eq_of_mem_replicate he]
      exact (gen_closed rows).dbl 0
    have hR : ∀ p x j q, News rows ins.length c outs p x j q → q.1 = (p.1.1, addIdx j p.1.2) := fun p x j q h => h.1
    have hd : derivs fuel args (cur == 0) ins.length prev (c ++ outs) =
        (if args.length ≤ prev.length then
          fwdLoop fuel (c ++ outs) rows ins.length (prev.map (·.1)) (cur == 0) 0 args (List.replicate (c ++ outs).length (.dbl 0)) []
        else
          revLoop fuel (c ++ outs) rows ins.length prev.length args (cur == 0) 0 (prev.map (·.1))
            (List.replicate (c ++ outs).length (.dbl 0)) []).map fun r =>
          r.bind fun news => (sortKeys news).bind fun l => .ok (l.map fun p => (p.1, subsAll (full ins.length c outs) p.2)) := by
      rw [derivs, hrows, hsm]
      rfl
    rw [hd]
    have finish : ∀ raw, Raw (fun p x j q => News rows ins.length c outs p x j q) args prev raw →
        ∃ l, ((sortKeys raw).bind fun l => .ok (l.map fun p => (p.1, subsAll (full ins.length c outs) p.2))) = .ok l ∧
          NewOk S args nouts cur prev l := by
      intro raw hraw
      obtain ⟨l, h1, h2⟩ := newOk_of_raw h hl hcur hraw
      exact ⟨_, by rw [h1, Res.bind_ok], h2⟩
    by_cases hmode : args.length ≤ prev.length
    · rw [if_pos hmode]
      obtain ⟨t1, t2⟩ := fwdLoop_spec h (fuel := fuel) (first := cur == 0) args 0 _ [] hrep hrepG
      have hraw : ∀ NS, List.Forall₂ (fun (y : DVar × Nat) ns => List.Forall₂ (fun p q => News rows ins.length c outs p y.1 y.2 q) prev ns)
          (args.zipIdx 0) NS → Raw (fun p x j q => News rows ins.length c outs p x j q) args prev (NS.foldl (addDiffs (cur == 0)) []) := by
        intro NS hNS
        by_cases h0 : cur = 0
        · subst h0
          exact raw_first_fwd hR hl hNS
        · have : (cur == 0) = false := by simpa using h0
          rw [this]
          exact raw_higher hR hl args 0 NS [] rfl (by simp) (by simp) (by intro p _ j hj; omega) hNS
      constructor
      · intro news hnews
        cases hf : fwdLoop fuel (c ++ outs) rows ins.length (prev.map (·.1)) (cur == 0) 0 args (List.replicate (c ++ outs).length (.dbl 0)) [] with
        | none => rw [hf] at hnews; cases hnews
        | some r =>
          obtain ⟨NS, rfl, hNS⟩ := t2 r hf
          rw [hf, Option.map_some, Res.bind_ok] at hnews
          obtain ⟨l, h1, h2⟩ := finish _ (hraw NS hNS)
          rw [h1] at hnews
          cases hnews
          exact h2
      · intro _ hfu _
        obtain ⟨acc', hf⟩ := t1 hfu
        obtain ⟨NS, he, hNS⟩ := t2 _ hf
        obtain ⟨l, h1, h2⟩ := finish _ (hraw NS hNS)
        cases he
        exact ⟨l, by rw [hf, Option.map_some, Res.bind_ok, h1]⟩
    · rw [if_neg hmode]
      have h0 : cur = 0 := by
        by_contra h0
        exact hmode (hl.many (by omega) hn)
      subst h0
      obtain ⟨t1, t2⟩ := revLoop_spec h (fuel := fuel) (first := true) (args := args) prev 0 _ [] rfl hrep hrepG
      constructor
      · intro news hnews
        cases hf : revLoop fuel (c ++ outs) rows ins.length prev.length args true 0 (prev.map (·.1)) (List.replicate (c ++ outs).length (.dbl 0)) [] with
        | none =>
          rw [show ((0 : Nat) == 0) = true from rfl, hf] at hnews; cases hnews
        | some r =>
          rw [show ((0 : Nat) == 0) = true from rfl, hf, Option.map_some] at hnews
          cases r with
          | throw => cases hnews
          | ub => cases hnews
          | ok acc' =>
            obtain ⟨NS, rfl, hNS⟩ := t2 _ hf
            rw [Res.bind_ok] at hnews
            obtain ⟨l, h1, h2⟩ := finish _ (raw_first_rev hR hl hNS)
            rw [h1] at hnews
            cases hnews
            exact h2
      · intro _ hfu h32
        obtain ⟨acc', hf⟩ := t1 hfu h32
        obtain ⟨NS, he, hNS⟩ := t2 _ hf
        obtain ⟨l, h1, h2⟩ := finish _ (raw_first_rev hR hl hNS)
        subst he
        exact ⟨l, by rw [show ((0 : Nat) == 0) = true from rfl, hf, Option.map_some, Res.bind_ok, h1]⟩

end Heyoka.AD
