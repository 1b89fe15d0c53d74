import Verif.Events.CompleteLemmas
import Verif.Events.FexLemmas

/-!
# Lemmas on the detection of all events
-/

namespace Heyoka.Events

open Heyoka.Integ (DTe DNte)

variable {K : Type*} [Field K] [LinearOrder K] [IsStrictOrderedRing K]

theorem detectOne_sound {c : Ctx K} (h0 : c.h ≠ 0) (hord : 2 ≤ c.order) (hlen : c.poly.length = c.order + 1)
    (hrf : RfSound c.rf) (useCs : Bool) (fuel : Nat) :
    ∃ r, detectOne c useCs fuel = .ok r ∧ ∀ s, r = some s → ∀ e ∈ s.1, DetOk c e := by
  obtain ⟨b, hb, -⟩ := fexCheck_ok hlen useCs c.h
  unfold detectOne
  rw [hb, Res.bind_ok]
  split
  · exact ⟨_, rfl, by rintro s ⟨⟩; simp⟩
  · split
    · exact ⟨_, rfl, by rintro s ⟨⟩; simp⟩
    · rename_i hoff
      exact detectRoots_sound ⟨h0, hord, hlen, not_le.mp hoff⟩ hrf fuel

omit [LinearOrder K] [IsStrictOrderedRing K] in
theorem evPoly_ok [LinearOrder K] {p : Params K} {jet : List K} {i : Nat} {terminal : Bool} {poly : List K}
    (h : evPoly p jet i terminal = .ok poly) : poly.length = p.order + 1 ∧
      poly = (jet.drop ((i + p.dim + (if terminal then 0 else p.tes.length)) * (p.order + 1))).take (p.order + 1) := by
  unfold evPoly at h
  obtain ⟨off, hoff⟩ : ∃ off, (i + p.dim + (if terminal then 0 else p.tes.length)) * (p.order + 1) = off := ⟨_, rfl⟩
  simp only [hoff] at h
  rw [hoff]
  split at h
  · simp at h
  · simp only [Res.ok.injEq] at h
    refine ⟨?_, h.symm⟩
    rw [← h, List.length_take, List.length_drop]
    omega

omit [LinearOrder K] [IsStrictOrderedRing K] in
theorem evPoly_total [LinearOrder K] {p : Params K} {jet : List K} {i : Nat} {terminal : Bool}
    (h : (i + p.dim + (if terminal then 0 else p.tes.length) + 1) * (p.order + 1) ≤ jet.length) :
    ∃ poly, evPoly p jet i terminal = .ok poly := by
  unfold evPoly
  simp only
  rw [if_neg]
  · exact ⟨_, rfl⟩
  · rw [Nat.add_mul, Nat.one_mul] at h; omega

/-- The data for a terminal event. -/
def tCtx (p : Params K) (jet : List K) (h : K) (cd : Option (K × K)) (d : Dir) (i : Nat) : Ctx K :=
  ⟨h, p.order, (jet.drop ((i + p.dim) * (p.order + 1))).take (p.order + 1), true, d, lbOffset h cd, p.rf, p.na h⟩

/-- The data for a non-terminal event. -/
def nCtx (p : Params K) (jet : List K) (h : K) (d : Dir) (i : Nat) : Ctx K :=
  ⟨h, p.order, (jet.drop ((i + p.dim + p.tes.length) * (p.order + 1))).take (p.order + 1), false, d, 0, p.rf, p.na h⟩

omit [LinearOrder K] [IsStrictOrderedRing K] in
theorem rd_eq_ok {α : Type*} {l : List α} {i : Nat} {x : α} (h : rd l i = .ok x) : l[i]? = some x := by
  unfold rd at h
  cases hq : l[i]? with
  | none => rw [hq] at h; simp at h
  | some y => rw [hq] at h; simp only [Res.ok.injEq] at h; rw [h]

/-- What the loop over the terminal events returns. -/
def TRun (p : Params K) (fuel : Nat) (jet : List K) (h : K) (cds : List (Option (K × K))) (ds : List Dir) (i : Nat)
    (rest : List (DTe K)) : Prop :=
  (∀ e ∈ rest, i ≤ e.idx ∧ e.idx < i + ds.length) ∧
  ∀ k (hk : k < ds.length), ∃ cd r, cds[i + k]? = some cd ∧
    (tCtx p jet h cd ds[k] (i + k)).poly.length = p.order + 1 ∧
    detectOne (tCtx p jet h cd ds[k] (i + k)) p.useCs fuel = .ok (some r) ∧
    rest.filter (fun e => e.idx == i + k) = r.1.map fun e => ⟨i + k, e.t, e.sgn, e.absDer⟩

omit [IsStrictOrderedRing K] in
theorem runT_ok {p : Params K} {fuel : Nat} {jet : List K} {hh : K} {cds : List (Option (K × K))} :
    ∀ (ds : List Dir) (i : Nat) (out ts : List (DTe K)), runT p fuel jet hh cds ds i out = .ok (some ts) →
    ∃ rest, ts = out ++ rest ∧ TRun p fuel jet hh cds ds i rest := by
  intro ds
  induction ds with
  | nil =>
    intro i out ts h
    simp only [runT, Res.ok.injEq, Option.some.injEq] at h
    exact ⟨[], by simp [h], by simp, by simp⟩
  | cons d ds ih =>
    intro i out ts h
    simp only [runT] at h
    cases hp : evPoly p jet i true with
    | throw => rw [hp] at h; simp at h
    | ub => rw [hp] at h; simp at h
    | ok poly =>
      obtain ⟨hp1, hp2⟩ := evPoly_ok hp
      rw [hp, Res.bind_ok] at h
      cases hc : rd cds i with
      | throw => rw [hc] at h; simp at h
      | ub => rw [hc] at h; simp at h
      | ok cd =>
        rw [hc, Res.bind_ok] at h
        have hcd := rd_eq_ok hc
        have hctx : (⟨hh, p.order, poly, true, d, lbOffset hh cd, p.rf, p.na hh⟩ : Ctx K) = tCtx p jet hh cd d i := by
          simp only [tCtx, hp2, if_true, Nat.add_zero]
        rw [hctx] at h
        cases hd : detectOne (tCtx p jet hh cd d i) p.useCs fuel with
        | throw => rw [hd] at h; simp at h
        | ub => rw [hd] at h; simp at h
        | ok r =>
          rw [hd, Res.bind_ok] at h
          cases r with
          | none => simp at h
          | some r =>
            simp only at h
            obtain ⟨rest, h1, h2, h3⟩ := ih _ _ _ h
            refine ⟨r.1.map (fun e => ⟨i, e.t, e.sgn, e.absDer⟩) ++ rest, by rw [h1, List.append_assoc], ?_, ?_⟩
            · intro e he
              rw [List.length_cons]
              rcases List.mem_append.mp he with he | he
              · obtain ⟨x, -, rfl⟩ := List.mem_map.mp he
                simp
              · have := h2 e he
                omega
            · intro k hk
              rw [List.filter_append]
              cases k with
              | zero =>
                refine ⟨cd, r, hcd, by rw [List.getElem_cons_zero, Nat.add_zero, ← hctx]; exact hp1, hd, ?_⟩
                have e1 : rest.filter (fun e => e.idx == i + 0) = [] := by
                  rw [List.filter_eq_nil_iff]
                  intro e he
                  have := h2 e he
                  simp only [beq_iff_eq]
                  omega
                rw [e1, List.append_nil, List.filter_eq_self.mpr]
                · rfl
                · intro e he
                  obtain ⟨x, -, rfl⟩ := List.mem_map.mp he
                  simp
              | succ k =>
                obtain ⟨cd', r', g1, g2, g3, g4⟩ := h3 k (by simpa using hk)
                have e0 : i + 1 + k = i + (k + 1) := by omega
                rw [e0] at g1 g2 g3 g4
                refine ⟨cd', r', g1, g2, g3, ?_⟩
                rw [g4, List.filter_eq_nil_iff.mpr, List.nil_append]
                intro e he
                obtain ⟨x, -, rfl⟩ := List.mem_map.mp he
                simp

/-- What the loop over the non-terminal events returns. -/
def NRun (p : Params K) (fuel : Nat) (jet : List K) (h : K) (ds : List Dir) (i : Nat)
    (rest : List (DNte K)) : Prop :=
  (∀ e ∈ rest, i ≤ e.idx ∧ e.idx < i + ds.length) ∧
  ∀ k (hk : k < ds.length), ∃ r, (nCtx p jet h ds[k] (i + k)).poly.length = p.order + 1 ∧
    detectOne (nCtx p jet h ds[k] (i + k)) p.useCs fuel = .ok (some r) ∧
    rest.filter (fun e => e.idx == i + k) = r.1.map fun e => ⟨i + k, e.t, e.sgn⟩

omit [IsStrictOrderedRing K] in
theorem runN_ok {p : Params K} {fuel : Nat} {jet : List K} {hh : K} :
    ∀ (ds : List Dir) (i : Nat) (out ts : List (DNte K)), runN p fuel jet hh ds i out = .ok (some ts) →
    ∃ rest, ts = out ++ rest ∧ NRun p fuel jet hh ds i rest := by
  intro ds
  induction ds with
  | nil =>
    intro i out ts h
    simp only [runN, Res.ok.injEq, Option.some.injEq] at h
    exact ⟨[], by simp [h], by simp, by simp⟩
  | cons d ds ih =>
    intro i out ts h
    simp only [runN] at h
    cases hp : evPoly p jet i false with
    | throw => rw [hp] at h; simp at h
    | ub => rw [hp] at h; simp at h
    | ok poly =>
      obtain ⟨hp1, hp2⟩ := evPoly_ok hp
      rw [hp, Res.bind_ok] at h
      have hctx : (⟨hh, p.order, poly, false, d, 0, p.rf, p.na hh⟩ : Ctx K) = nCtx p jet hh d i := by
        simp only [nCtx, hp2, Bool.false_eq_true, if_false]
      rw [hctx] at h
      cases hd : detectOne (nCtx p jet hh d i) p.useCs fuel with
      | throw => rw [hd] at h; simp at h
      | ub => rw [hd] at h; simp at h
      | ok r =>
        rw [hd, Res.bind_ok] at h
        cases r with
        | none => simp at h
        | some r =>
          simp only at h
          obtain ⟨rest, h1, h2, h3⟩ := ih _ _ _ h
          refine ⟨r.1.map (fun e => ⟨i, e.t, e.sgn⟩) ++ rest, by rw [h1, List.append_assoc], ?_, ?_⟩
          · intro e he
            rw [List.length_cons]
            rcases List.mem_append.mp he with he | he
            · obtain ⟨x, -, rfl⟩ := List.mem_map.mp he
              simp
            · have := h2 e he
              omega
          · intro k hk
            rw [List.filter_append]
            cases k with
            | zero =>
              refine ⟨r, by rw [List.getElem_cons_zero, Nat.add_zero, ← hctx]; exact hp1, hd, ?_⟩
              have e1 : rest.filter (fun e => e.idx == i + 0) = [] := by
                rw [List.filter_eq_nil_iff]
                intro e he
                have := h2 e he
                simp only [beq_iff_eq]
                omega
              rw [e1, List.append_nil, List.filter_eq_self.mpr]
              · rfl
              · intro e he
                obtain ⟨x, -, rfl⟩ := List.mem_map.mp he
                simp
            | succ k =>
              obtain ⟨r', g2, g3, g4⟩ := h3 k (by simpa using hk)
              have e0 : i + 1 + k = i + (k + 1) := by omega
              rw [e0] at g2 g3 g4
              refine ⟨r', g2, g3, ?_⟩
              rw [g4, List.filter_eq_nil_iff.mpr, List.nil_append]
              intro e he
              obtain ⟨x, -, rfl⟩ := List.mem_map.mp he
              simp

omit [IsStrictOrderedRing K] in
theorem detect_ok {p : Params K} {fuel : Nat} {jet : List K} {h : K} {cds : List (Option (K × K))}
    {ts : List (DTe K)} {ns : List (DNte K)} (hd : detect p fuel jet h cds = .ok (some (ts, ns))) :
    TRun p fuel jet h cds p.tes 0 ts ∧ NRun p fuel jet h p.ntes 0 ns := by
  unfold detect at hd
  cases ht : runT p fuel jet h cds p.tes 0 [] with
  | throw => rw [ht] at hd; simp at hd
  | ub => rw [ht] at hd; simp at hd
  | ok rt =>
    rw [ht, Res.bind_ok] at hd
    cases rt with
    | none => simp at hd
    | some ts' =>
      simp only at hd
      cases hn : runN p fuel jet h p.ntes 0 [] with
      | throw => rw [hn] at hd; simp at hd
      | ub => rw [hn] at hd; simp at hd
      | ok rn =>
        rw [hn, Res.bind_ok] at hd
        cases rn with
        | none => simp at hd
        | some ns' =>
          simp only [Res.ok.injEq, Option.some.injEq, Prod.mk.injEq] at hd
          obtain ⟨rfl, rfl⟩ := hd
          obtain ⟨r1, e1, g1⟩ := runT_ok _ _ _ _ ht
          obtain ⟨r2, e2, g2⟩ := runN_ok _ _ _ _ hn
          rw [List.nil_append] at e1 e2
          rw [e1, e2]
          exact ⟨g1, g2⟩

theorem runT_total {p : Params K} {fuel : Nat} {jet : List K} {hh : K} {cds : List (Option (K × K))}
    (h0 : hh ≠ 0) (hord : 2 ≤ p.order) (hrf : RfSound p.rf) :
    ∀ (ds : List Dir) (i : Nat) (out : List (DTe K)), i + ds.length ≤ cds.length →
    (i + ds.length + p.dim) * (p.order + 1) ≤ jet.length → ∃ r, runT p fuel jet hh cds ds i out = .ok r := by
  intro ds
  induction ds with
  | nil => intro i out _ _; exact ⟨_, rfl⟩
  | cons d ds ih =>
    intro i out hcd hjet
    rw [List.length_cons] at hcd hjet
    have hle : (i + p.dim + 1) * (p.order + 1) ≤ (i + (ds.length + 1) + p.dim) * (p.order + 1) :=
      Nat.mul_le_mul_right _ (by omega)
    obtain ⟨poly, hp⟩ := evPoly_total (p := p) (jet := jet) (i := i) (terminal := true) (by
      simp only [if_true, Nat.add_zero]; exact hle.trans hjet)
    obtain ⟨hp1, -⟩ := evPoly_ok hp
    have hi : i < cds.length := by omega
    simp only [runT, hp, rd_ok hi, Res.bind_ok]
    obtain ⟨r, hr, -⟩ := detectOne_sound
      (c := ⟨hh, p.order, poly, true, d, lbOffset hh cds[i], p.rf, p.na hh⟩) h0 hord hp1 hrf p.useCs fuel
    rw [hr, Res.bind_ok]
    cases r with
    | none => exact ⟨_, rfl⟩
    | some r =>
      refine ih (i + 1) _ (by omega) ?_
      have e : i + 1 + ds.length = i + (ds.length + 1) := by omega
      rw [e]; exact hjet

theorem runN_total {p : Params K} {fuel : Nat} {jet : List K} {hh : K}
    (h0 : hh ≠ 0) (hord : 2 ≤ p.order) (hrf : RfSound p.rf) :
    ∀ (ds : List Dir) (i : Nat) (out : List (DNte K)),
    (i + ds.length + p.dim + p.tes.length) * (p.order + 1) ≤ jet.length →
    ∃ r, runN p fuel jet hh ds i out = .ok r := by
  intro ds
  induction ds with
  | nil => intro i out _; exact ⟨_, rfl⟩
  | cons d ds ih =>
    intro i out hjet
    rw [List.length_cons] at hjet
    have hle : (i + p.dim + p.tes.length + 1) * (p.order + 1)
        ≤ (i + (ds.length + 1) + p.dim + p.tes.length) * (p.order + 1) := Nat.mul_le_mul_right _ (by omega)
    obtain ⟨poly, hp⟩ := evPoly_total (p := p) (jet := jet) (i := i) (terminal := false) (by
      simp only [Bool.false_eq_true, if_false]; exact hle.trans hjet)
    obtain ⟨hp1, -⟩ := evPoly_ok hp
    simp only [runN, hp, Res.bind_ok]
    obtain ⟨r, hr, -⟩ := detectOne_sound
      (c := ⟨hh, p.order, poly, false, d, 0, p.rf, p.na hh⟩) h0 hord hp1 hrf p.useCs fuel
    rw [hr, Res.bind_ok]
    cases r with
    | none => exact ⟨_, rfl⟩
    | some r =>
      refine ih (i + 1) _ ?_
      have e : i + 1 + ds.length = i + (ds.length + 1) := by omega
      rw [e]; exact hjet

/-- The end of the cooldown in terms of the displacement. -/
theorem lbOffset_le {h first second u : K} (h0 : h ≠ 0) (hu : lbOffset h (some (first, second)) ≤ u) :
    second ≤ |first + u * h| := by
  have habs := abs_pos.mpr h0
  unfold lbOffset at hu
  simp only at hu
  rcases lt_or_ge h 0 with hn | hp
  · rw [if_neg (not_le.mpr hn), div_le_iff₀ habs, abs_of_neg hn] at hu
    have := neg_abs_le (first + u * h)
    linarith
  · rw [if_pos hp, div_le_iff₀ habs, abs_of_nonneg hp] at hu
    have := le_abs_self (first + u * h)
    linarith

theorem lbOffset_lt {h first second u : K} (h0 : h ≠ 0) (hfs : |first| ≤ second) (hu0 : 0 < u) :
    lbOffset h (some (first, second)) < u ↔ second < |first + u * h| := by
  have habs := abs_pos.mpr h0
  obtain ⟨f1, f2⟩ := abs_le.mp hfs
  unfold lbOffset
  simp only
  rcases lt_or_gt_of_ne h0 with hn | hp
  · rw [if_neg (not_le.mpr hn), div_lt_iff₀ habs, abs_of_neg hn, lt_abs]
    have hneg : u * h < 0 := mul_neg_of_pos_of_neg hu0 hn
    constructor
    · intro h; right; linarith
    · rintro (h | h)
      · linarith
      · linarith
  · rw [if_pos hp.le, div_lt_iff₀ habs, abs_of_pos hp, lt_abs]
    have hpos : 0 < u * h := mul_pos hu0 hp
    constructor
    · intro h; left; linarith
    · rintro (h | h)
      · linarith
      · linarith

theorem accepts_iff (d : Dir) (x : K) : d.accepts (sgn x) = true ↔
    match d with
    | .any => True
    | .pos => 0 < x
    | .neg => x < 0 := by
  rcases sgn_cases x with ⟨h, e⟩ | ⟨h, e⟩ | ⟨h, e⟩ <;> rw [e] <;> cases d <;> simp [Dir.accepts, h, h.le, not_lt.mpr]
  all_goals exact h.le

end Heyoka.Events
