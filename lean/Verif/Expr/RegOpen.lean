import Verif.Expr.Reg
import Mathlib.Analysis.SpecialFunctions.Pow.Continuity
import Mathlib.Analysis.SpecialFunctions.Complex.Arg

/-!
# The regular points of an expression form an open set

If an expression is regular at a point, then it is regular in a neighbourhood of the point, and its value is
continuous there.
-/

set_option linter.unusedSectionVars false
set_option linter.unusedVariables false

open Filter Topology

namespace Heyoka.Kepler

/-- The solution of Kepler's equation depends continuously on the coefficients. -/
theorem kepSol_continuousAt {Z : Type} [TopologicalSpace Z] {A B C : Z → ℝ} {z₀ : Z} (hA : ContinuousAt A z₀)
    (hB : ContinuousAt B z₀) (hC : ContinuousAt C z₀) (h : A z₀ ^ 2 + B z₀ ^ 2 < 1) :
    ContinuousAt (fun z => kepSol (A z) (B z) (C z)) z₀ := by
  have hG : ∀ x, ContinuousAt (fun z => kepG (A z) (B z) x) z₀ := by
    intro x
    unfold kepG
    exact (continuousAt_const.add (hA.mul continuousAt_const)).add (hB.mul continuousAt_const)
  have hn : ∀ᶠ z in 𝓝 z₀, A z ^ 2 + B z ^ 2 < 1 := ((hA.pow 2).add (hB.pow 2)).eventually (gt_mem_nhds h)
  refine tendsto_order.2 ⟨fun x hx => ?_, fun x hx => ?_⟩
  · have h1 : kepG (A z₀) (B z₀) x < C z₀ := by
      have := kepG_strictMono h hx
      rwa [kepG_kepSol h] at this
    filter_upwards [hn, (hG x).eventually_lt hC h1] with z hz hlt
    by_contra hc
    have := (kepG_strictMono hz).monotone (not_lt.1 hc)
    rw [kepG_kepSol hz] at this
    exact absurd hlt (not_lt.2 this)
  · have h1 : C z₀ < kepG (A z₀) (B z₀) x := by
      have := kepG_strictMono h hx
      rwa [kepG_kepSol h] at this
    filter_upwards [hn, hC.eventually_lt (hG x) h1] with z hz hlt
    by_contra hc
    have := (kepG_strictMono hz).monotone (not_lt.1 hc)
    rw [kepG_kepSol hz] at this
    exact absurd hlt (not_lt.2 this)

/-- The reduction of an angle is continuous where it does not vanish, and does not vanish nearby. -/
theorem red_continuousAt {Z : Type} [TopologicalSpace Z] {X : Z → ℝ} {z₀ : Z} (hX : ContinuousAt X z₀)
    (h : red (X z₀) ≠ 0) : ContinuousAt (fun z => red (X z)) z₀ ∧ ∀ᶠ z in 𝓝 z₀, red (X z) ≠ 0 := by
  have h1 : ContinuousAt (fun z => red (X z)) z₀ :=
    (hX.sub continuousAt_const).congr_of_eventuallyEq (hX.eventually (red_eventually h))
  exact ⟨h1, h1.eventually_ne h⟩

end Heyoka.Kepler

namespace Heyoka.Sym

variable [DFunc]

variable {Z : Type} [TopologicalSpace Z] {z₀ : Z}

/-- An argument of a function as a function of a parameter in `Z`. -/
structure PArg (Z : Type) where
  dep : Prop
  isB : Prop
  c : Z → ℝ

/-- The argument is continuous at `z₀`, locally constant if it is a number or a truth value. -/
structure PArg.Ok (z₀ : Z) (A : PArg Z) : Prop where
  cont : ContinuousAt A.c z₀
  indep : ¬ A.dep → ∀ᶠ z in 𝓝 z₀, A.c z = A.c z₀
  bool : A.isB → ∀ᶠ z in 𝓝 z₀, A.c z = A.c z₀

/-- The argument at a point. -/
def PArg.at (A : PArg Z) (z : Z) : ArgVal := ⟨A.dep, A.isB, A.c z⟩

/-- The function is differentiable near `z₀` and its value is continuous. -/
def NodeC (z₀ : Z) (f : Fn ℝ) (As : List (PArg Z)) : Prop :=
  ∃ G : Z → ℝ, ContinuousAt G z₀ ∧ (∀ᶠ z in 𝓝 z₀, DiffPt f (As.map (·.at z)) ∧ realApp f (As.map (·.c z)) = some (G z)) ∧
    (f.isBool → ∀ᶠ z in 𝓝 z₀, G z = G z₀)

theorem PArg.Ok.truth {A : PArg Z} (h : A.Ok z₀) (ht : (A.at z₀).TruthStable) :
    ∀ᶠ z in 𝓝 z₀, (A.at z).TruthStable ∧ (A.c z ≠ 0 ↔ A.c z₀ ≠ 0) := by
  have hc : (∀ᶠ z in 𝓝 z₀, A.c z = A.c z₀) → ∀ᶠ z in 𝓝 z₀, (A.at z).TruthStable ∧ (A.c z ≠ 0 ↔ A.c z₀ ≠ 0) := by
    intro h
    filter_upwards [h] with z hz
    refine ⟨fun hd => (ht hd).imp (fun h => ?_) fun h => h, by rw [hz]⟩
    show A.c z ≠ 0
    rw [hz]; exact h
  by_cases hd : A.dep
  · rcases ht hd with h1 | h1
    · filter_upwards [h.cont.eventually_ne h1] with z hz
      exact ⟨fun _ => .inl hz, ⟨fun _ => h1, fun _ => hz⟩⟩
    · exact hc (h.bool h1)
  · exact hc (h.indep hd)

/-- All the arguments are locally constant. -/
theorem nodeC_const {f : Fn ℝ} {As : List (PArg Z)} {y : ℝ} (h : ∀ A ∈ As, A.Ok z₀) (hd : ∀ A ∈ As, ¬ A.dep)
    (hp : DiffPt f (As.map (·.at z₀))) (hv : realApp f (As.map (·.c z₀)) = some y) : NodeC z₀ f As := by
  refine ⟨fun _ => y, continuousAt_const, ?_, fun _ => .of_forall fun _ => rfl⟩
  filter_upwards [eventually_list As fun A hA => (h A hA).indep (hd A hA)] with z hz
  have h1 : As.map (·.at z) = As.map (·.at z₀) :=
    List.map_congr_left fun A hA => by simp [PArg.at, hz A hA]
  have h2 : As.map (·.c z) = As.map (·.c z₀) := List.map_congr_left fun A hA => hz A hA
  rw [h1, h2]
  exact ⟨hp, hv⟩

/-- Functions of one argument. -/
theorem nodeC_unary {f : Fn ℝ} {A : PArg Z} (hA : A.Ok z₀) (hf : ¬ f.isBool) (hp : DiffPt f [A.at z₀]) (h : ℝ → ℝ)
    (hv : ∀ y, DiffPt f [⟨A.dep, A.isB, y⟩] → realApp f [y] = some (h y))
    (ho : A.dep → ∀ᶠ y in 𝓝 (A.c z₀), DiffPt f [⟨A.dep, A.isB, y⟩])
    (hc : A.dep → ContinuousAt h (A.c z₀)) : NodeC z₀ f [A] := by
  by_cases hd : A.dep
  · refine ⟨fun z => h (A.c z), ContinuousAt.comp (hc hd) hA.cont, ?_, fun hb => absurd hb hf⟩
    filter_upwards [hA.cont.eventually (ho hd)] with z hz
    exact ⟨hz, hv _ hz⟩
  · exact nodeC_const (by simpa using hA) (by simpa using hd) hp (hv _ hp)

theorem nodeC_list {As : List (PArg Z)} (h : ∀ A ∈ As, A.Ok z₀) (f : Fn ℝ) (hf : f = .land ∨ f = .lor)
    (hp : DiffPt f (As.map (·.at z₀))) : NodeC z₀ f As := by
  have ht : ∀ A ∈ As, (A.at z₀).TruthStable := by
    intro A hA
    rcases hf with rfl | rfl <;> exact hp _ (List.mem_map_of_mem hA)
  have hev := eventually_list As fun A hA => (h A hA).truth (ht A hA)
  have hG : ∀ᶠ z in 𝓝 z₀, DiffPt f (As.map (·.at z)) ∧ realApp f (As.map (·.c z)) = realApp f (As.map (·.c z₀)) := by
    filter_upwards [hev] with z hz
    constructor
    · rcases hf with rfl | rfl <;>
        (intro a ha; obtain ⟨A, hA, rfl⟩ := List.mem_map.1 ha; exact (hz A hA).1)
    · rcases hf with rfl | rfl
      · simp only [realApp, List.mem_map, forall_exists_index, and_imp, forall_apply_eq_imp_iff₂]
        congr 1
        refine if_congr ?_ rfl rfl
        exact forall₂_congr fun A hA => (hz A hA).2
      · simp only [realApp, List.mem_map, exists_exists_and_eq_and]
        congr 1
        refine if_congr ?_ rfl rfl
        exact exists_congr fun A => and_congr_right fun hA => (hz A hA).2
  obtain ⟨y, hy⟩ : ∃ y, realApp f (As.map (·.c z₀)) = some y := by
    rcases hf with rfl | rfl <;> exact ⟨_, rfl⟩
  rw [hy] at hG
  exact ⟨fun _ => y, continuousAt_const, hG, fun _ => .of_forall fun _ => rfl⟩

theorem nodeC_pow (algo) {b e : PArg Z} (hb : b.Ok z₀) (he : e.Ok z₀) (hp : DiffPt (.pow algo) [b.at z₀, e.at z₀]) :
    NodeC z₀ (.pow algo) [b, e] := by
  have hv : ∀ z, PowDom (b.c z) (e.c z) → realApp (.pow algo) [b.c z, e.c z] = some (b.c z ^ e.c z) := by
    intro z h; simp [realApp, h]
  by_cases hd : b.dep ∨ e.dep
  · rcases hp.2 hd with h1 | ⟨h1, ⟨n, h2⟩, h3⟩
    · have hev := hb.cont.eventually (lt_mem_nhds h1)
      refine ⟨fun z => b.c z ^ e.c z, ?_, ?_, fun h => h.elim⟩
      · exact (hb.cont.rpow he.cont (.inl h1.ne'))
      · filter_upwards [hev] with z hz
        exact ⟨⟨.inl hz, fun _ => .inl hz⟩, hv z (.inl hz)⟩
    · simp only [PArg.at] at h1 h2 h3
      have hne : ∀ᶠ z in 𝓝 z₀, b.c z ≠ 0 ∨ 1 ≤ e.c z₀ := by
        rcases h3 with h3 | h3
        · exact (hb.cont.eventually_ne h3).mono fun z hz => .inl hz
        · exact .of_forall fun _ => .inr h3
      have hdom : ∀ᶠ z in 𝓝 z₀, e.c z = e.c z₀ ∧ PowDom (b.c z) (e.c z) ∧ (b.c z ≠ 0 ∨ 1 ≤ e.c z) := by
        filter_upwards [he.indep h1, hne] with z hz hn
        rw [hz]
        refine ⟨rfl, ?_, hn⟩
        rcases lt_trichotomy (b.c z) 0 with h | h | h
        · exact .inr (.inr ⟨h, n, h2⟩)
        · exact .inr (.inl ⟨h, by rcases hn with h' | h'; exact absurd h h'; linarith⟩)
        · exact .inl h
      refine ⟨fun z => b.c z ^ e.c z₀, ?_, ?_, fun h => h.elim⟩
      · refine ContinuousAt.comp (g := fun y : ℝ => y ^ e.c z₀) (Real.continuousAt_rpow_const _ _ ?_) hb.cont
        rcases h3 with h3 | h3
        · exact .inl h3
        · right; linarith
      · filter_upwards [hdom] with z ⟨h5, h6, h7⟩
        refine ⟨⟨h6, fun _ => .inr ⟨h1, ⟨n, ?_⟩, h7⟩⟩, ?_⟩
        · exact h5.trans h2
        · simp only [List.map_cons, List.map_nil]
          rw [hv z h6, h5]
  · push Not at hd
    exact nodeC_const (by simp [hb, he]) (by simpa using hd) hp (by simpa using hv z₀ hp.1)

theorem nodeC_atan2 {Y X : PArg Z} (hY : Y.Ok z₀) (hX : X.Ok z₀) (hp : DiffPt .atan2 [Y.at z₀, X.at z₀]) :
    NodeC z₀ .atan2 [Y, X] := by
  have hv : ∀ z, ¬ (X.c z = 0 ∧ Y.c z = 0) → realApp .atan2 [Y.c z, X.c z] = some (Complex.arg ⟨X.c z, Y.c z⟩) := by
    intro z h; simp only [realApp]; rw [if_neg h]
  by_cases hd : Y.dep ∨ X.dep
  · have h1 : 0 < X.c z₀ ∨ Y.c z₀ ≠ 0 := hp.2 hd
    have hev : ∀ᶠ z in 𝓝 z₀, 0 < X.c z ∨ Y.c z ≠ 0 := by
      rcases h1 with h1 | h1
      · exact (hX.cont.eventually (lt_mem_nhds h1)).mono fun z hz => .inl hz
      · exact (hY.cont.eventually_ne h1).mono fun z hz => .inr hz
    refine ⟨fun z => Complex.arg ⟨X.c z, Y.c z⟩, ?_, ?_, fun h => h.elim⟩
    · refine ContinuousAt.comp (g := Complex.arg) (f := fun z => (⟨X.c z, Y.c z⟩ : ℂ))
        (Complex.continuousAt_arg (Complex.mem_slitPlane_iff.2 h1)) ?_
      have : (fun z => (⟨X.c z, Y.c z⟩ : ℂ)) = fun z => (X.c z : ℂ) + (Y.c z : ℂ) * Complex.I := by
        funext z; exact Complex.mk_eq_add_mul_I _ _
      rw [this]
      exact (Complex.continuous_ofReal.continuousAt.comp hX.cont).add
        ((Complex.continuous_ofReal.continuousAt.comp hY.cont).mul continuousAt_const)
    · filter_upwards [hev] with z hz
      have hn : ¬ (X.c z = 0 ∧ Y.c z = 0) := by
        rintro ⟨h2, h3⟩
        rcases hz with h | h
        · exact h.ne' h2
        · exact h h3
      exact ⟨⟨hn, fun _ => hz⟩, hv z hn⟩
  · push Not at hd
    exact nodeC_const (by simp [hY, hX]) (by simpa using hd) hp (by simpa using hv z₀ hp.1)

theorem nodeC_rel (op) {A B : PArg Z} (hA : A.Ok z₀) (hB : B.Ok z₀) (hp : DiffPt (.rel op) [A.at z₀, B.at z₀]) :
    NodeC z₀ (.rel op) [A, B] := by
  by_cases hd : A.dep ∨ B.dep
  · have h1 : A.c z₀ ≠ B.c z₀ := hp hd
    have hG : ∀ᶠ z in 𝓝 z₀, A.c z ≠ B.c z ∧ (op.holds (A.c z) (B.c z) ↔ op.holds (A.c z₀) (B.c z₀)) := by
      rcases lt_or_gt_of_ne h1 with h2 | h2
      · filter_upwards [hA.cont.eventually_lt hB.cont h2] with z hz
        refine ⟨hz.ne, ?_⟩
        cases op <;> simp [RelOp.holds, hz, h2, hz.ne, h2.ne, hz.le, h2.le, hz.not_gt, h2.not_gt, hz.not_ge, h2.not_ge]
      · filter_upwards [hB.cont.eventually_lt hA.cont h2] with z hz
        refine ⟨hz.ne', ?_⟩
        cases op <;> simp [RelOp.holds, hz, h2, hz.ne', h2.ne', hz.le, h2.le, hz.not_gt, h2.not_gt, hz.not_ge, h2.not_ge]
    classical
    refine ⟨fun _ => if op.holds (A.c z₀) (B.c z₀) then 1 else 0, continuousAt_const, ?_, fun _ => .of_forall fun _ => rfl⟩
    filter_upwards [hG] with z ⟨h2, h3⟩
    refine ⟨fun _ => h2, ?_⟩
    simp only [List.map_cons, List.map_nil, realApp]
    congr 1
    exact if_congr h3 rfl rfl
  · push Not at hd
    exact nodeC_const (by simp [hA, hB]) (by simpa using hd) hp (by simp [realApp]; rfl)

theorem nodeC_select {C A B : PArg Z} (hC : C.Ok z₀) (hA : A.Ok z₀) (hB : B.Ok z₀)
    (hp : DiffPt .select [C.at z₀, A.at z₀, B.at z₀]) : NodeC z₀ .select [C, A, B] := by
  have ht := hC.truth hp
  by_cases h0 : C.c z₀ ≠ 0
  · refine ⟨A.c, hA.cont, ?_, fun h => h.elim⟩
    filter_upwards [ht] with z ⟨h1, h2⟩
    exact ⟨h1, by simp [realApp, h2.2 h0]⟩
  · refine ⟨B.c, hB.cont, ?_, fun h => h.elim⟩
    filter_upwards [ht] with z ⟨h1, h2⟩
    refine ⟨h1, ?_⟩
    have : C.c z = 0 := by
      by_contra h3
      exact h0 (h2.1 h3)
    simp [realApp, this]

theorem nodeC_kepE {e M : PArg Z} (he : e.Ok z₀) (hM : M.Ok z₀) (hp : DiffPt .kepE [e.at z₀, M.at z₀]) :
    NodeC z₀ .kepE [e, M] := by
  have hv : ∀ z, 0 ≤ e.c z ∧ e.c z < 1 → realApp .kepE [e.c z, M.c z] = some (Kepler.red (Kepler.kepSol 0 (-e.c z) (M.c z))) := by
    intro z h; simp only [realApp]; rw [if_pos h]
  obtain ⟨h1, h2, h3⟩ := hp
  simp only [PArg.at] at h1 h2 h3
  by_cases hd : e.dep ∨ M.dep
  · have hlt : (0 : ℝ) ^ 2 + (-e.c z₀) ^ 2 < 1 := by nlinarith [h1.1, h1.2]
    have hs := Kepler.kepSol_continuousAt (A := fun _ => 0) continuousAt_const he.cont.neg hM.cont hlt
    obtain ⟨h4, h5⟩ := Kepler.red_continuousAt hs (h3 hd)
    have h6 : ∀ᶠ z in 𝓝 z₀, (0 ≤ e.c z ∧ e.c z < 1) ∧ (e.dep → 0 < e.c z) := by
      by_cases hed : e.dep
      · filter_upwards [he.cont.eventually (lt_mem_nhds (h2 hed)), he.cont.eventually (gt_mem_nhds h1.2)] with z h7 h8
        exact ⟨⟨h7.le, h8⟩, fun _ => h7⟩
      · filter_upwards [he.indep hed] with z hz
        rw [hz]
        exact ⟨h1, h2⟩
    refine ⟨_, h4, ?_, fun h => h.elim⟩
    filter_upwards [h5, h6] with z h7 h8
    exact ⟨⟨h8.1, h8.2, fun _ => h7⟩, hv z h8.1⟩
  · push Not at hd
    exact nodeC_const (by simp [he, hM]) (by simpa using hd) ⟨h1, h2, h3⟩ (by simpa using hv z₀ h1)

theorem nodeC_kepF {h k l : PArg Z} (hh : h.Ok z₀) (hk : k.Ok z₀) (hl : l.Ok z₀)
    (hp : DiffPt .kepF [h.at z₀, k.at z₀, l.at z₀]) : NodeC z₀ .kepF [h, k, l] := by
  have hv : ∀ z, h.c z ^ 2 + k.c z ^ 2 < 1 →
      realApp .kepF [h.c z, k.c z, l.c z] = some (Kepler.red (Kepler.kepSol (h.c z) (-k.c z) (l.c z))) := by
    intro z h; simp only [realApp]; rw [if_pos h]
  obtain ⟨h1, h3⟩ := hp
  simp only [PArg.at] at h1 h3
  by_cases hd : h.dep ∨ k.dep ∨ l.dep
  · have hs := Kepler.kepSol_continuousAt hh.cont hk.cont.neg hl.cont (by simpa using h1)
    obtain ⟨h4, h5⟩ := Kepler.red_continuousAt hs (h3 hd)
    have h6 : ∀ᶠ z in 𝓝 z₀, h.c z ^ 2 + k.c z ^ 2 < 1 :=
      ((hh.cont.pow 2).add (hk.cont.pow 2)).eventually (gt_mem_nhds h1)
    refine ⟨_, h4, ?_, fun h => h.elim⟩
    filter_upwards [h5, h6] with z h7 h8
    exact ⟨⟨h8, fun _ => h7⟩, hv z h8⟩
  · push Not at hd
    exact nodeC_const (by simp [hh, hk, hl]) (by simpa using hd) ⟨h1, h3⟩ (by simpa using hv z₀ h1)

theorem nodeC_kepDE {s c D : PArg Z} (hs : s.Ok z₀) (hc : c.Ok z₀) (hD : D.Ok z₀)
    (hp : DiffPt .kepDE [s.at z₀, c.at z₀, D.at z₀]) : NodeC z₀ .kepDE [s, c, D] := by
  have hv : ∀ z, s.c z ^ 2 + c.c z ^ 2 < 1 →
      realApp .kepDE [s.c z, c.c z, D.c z] = some (Kepler.red (Kepler.kepSol (-s.c z) (-c.c z) (D.c z - s.c z))) := by
    intro z h; simp only [realApp]; rw [if_pos h]
  obtain ⟨h1, h3⟩ := hp
  simp only [PArg.at] at h1 h3
  by_cases hd : s.dep ∨ c.dep ∨ D.dep
  · have hs' := Kepler.kepSol_continuousAt hs.cont.neg hc.cont.neg (hD.cont.sub hs.cont) (by simpa using h1)
    obtain ⟨h4, h5⟩ := Kepler.red_continuousAt hs' (h3 hd)
    have h6 : ∀ᶠ z in 𝓝 z₀, s.c z ^ 2 + c.c z ^ 2 < 1 :=
      ((hs.cont.pow 2).add (hc.cont.pow 2)).eventually (gt_mem_nhds h1)
    refine ⟨_, h4, ?_, fun h => h.elim⟩
    filter_upwards [h5, h6] with z h7 h8
    exact ⟨⟨h8, fun _ => h7⟩, hv z h8⟩
  · push Not at hd
    exact nodeC_const (by simp [hs, hc, hD]) (by simpa using hd) ⟨h1, h3⟩ (by simpa using hv z₀ h1)

theorem realErf_continuous : Continuous realErf := by
  unfold realErf
  refine continuous_const.mul ?_
  exact intervalIntegral.continuous_primitive (fun a b => (by fun_prop : Continuous fun t : ℝ => Real.exp (-t ^ 2)).intervalIntegrable a b) 0

/-- All the functions. -/
theorem nodeC_dfun {id : String} {didx : List (Nat × Nat)} {As : List (PArg Z)} (h : ∀ A ∈ As, A.Ok z₀)
    (hd : DiffPt (.dfun id didx) (As.map (·.at z₀))) : NodeC z₀ (.dfun id didx) As := by
  obtain ⟨h1, φ, h2, h3⟩ := hd
  have hof : ∀ z, (As.map fun A => A.c z) = List.ofFn fun i : Fin As.length => As[i].c z := fun z => by
    apply List.ext_getElem <;> simp
  have hmap : ∀ z, ((As.map (·.at z)).map (·.val)) = As.map fun A => A.c z := fun z => by
    rw [List.map_map]; rfl
  rw [hmap] at h3
  have h4 : SmAt (φ id) fun i : Fin As.length => As[i].c z₀ := h3.smAt (hof z₀)
  have hc : ContinuousAt (fun z => fun i : Fin As.length => As[i].c z) z₀ :=
    continuousAt_pi.2 fun i => (h _ (List.getElem_mem _)).cont
  refine ⟨fun z => dpart didx (φ id) (As.map fun A => A.c z), ?_, ?_, fun h => h.elim⟩
  · have h5 := ContinuousAt.comp (g := onVec As.length (dpart didx (φ id))) (f := fun z => fun i : Fin As.length => As[i].c z)
      (x := z₀) (h4.dpart didx).diff.continuousAt hc
    refine h5.congr (.of_forall fun z => ?_)
    show dpart didx (φ id) (List.ofFn _) = _
    rw [← hof z]
  · filter_upwards [hc.eventually h4.near] with z hz
    refine ⟨⟨h1, φ, h2, ?_⟩, by simp [realApp, h2]⟩
    rw [hmap]
    exact hz.smoothFn (hof z)

theorem nodeC {f : Fn ℝ} {As : List (PArg Z)} (h : ∀ A ∈ As, A.Ok z₀) (hf : f ≠ .time)
    (hd : DiffPt f (As.map (·.at z₀))) : NodeC z₀ f As := by
  match f, As, hd with
  | .sum, As, _ =>
    refine ⟨fun z => (As.map fun A => A.c z).sum, ?_, .of_forall fun z => ⟨trivial, by simp [realApp]⟩, fun h => h.elim⟩
    induction As with
    | nil => exact continuousAt_const
    | cons A As ih =>
      simp only [List.map_cons, List.sum_cons]
      exact (h A (by simp)).cont.add (ih trivial fun B hB => h B (by simp [hB]))
  | .prod neg, As, _ =>
    refine ⟨fun z => (As.map fun A => A.c z).prod, ?_, .of_forall fun z => ⟨trivial, by simp [realApp]⟩, fun h => h.elim⟩
    induction As with
    | nil => exact continuousAt_const
    | cons A As ih =>
      simp only [List.map_cons, List.prod_cons]
      exact (h A (by simp)).cont.mul (ih trivial fun B hB => h B (by simp [hB]))
  | .pow algo, [b, e], hd => exact nodeC_pow algo (h b (by simp)) (h e (by simp)) hd
  | .sin _, [A], hd =>
    exact nodeC_unary (h A (by simp)) (fun h => h) hd Real.sin (fun _ _ => rfl) (fun _ => .of_forall fun _ => trivial)
      fun _ => Real.continuous_sin.continuousAt
  | .cos _, [A], hd =>
    exact nodeC_unary (h A (by simp)) (fun h => h) hd Real.cos (fun _ _ => rfl) (fun _ => .of_forall fun _ => trivial)
      fun _ => Real.continuous_cos.continuousAt
  | .tan, [A], hd =>
    refine nodeC_unary (h A (by simp)) (fun h => h) hd Real.tan (fun y hy => ?_) (fun _ => ?_) fun _ => ?_
    · simp only [realApp]; rw [if_neg hy]
    · exact Real.continuous_cos.continuousAt.eventually_ne hd
    · exact Real.continuousAt_tan.2 hd
  | .asin, [A], hd =>
    refine nodeC_unary (h A (by simp)) (fun h => h) hd Real.arcsin (fun y hy => ?_) (fun hA => ?_) fun _ =>
      Real.continuous_arcsin.continuousAt
    · simp only [realApp]; rw [if_pos hy.1]
    · filter_upwards [lt_mem_nhds (hd.2 hA).1, gt_mem_nhds (hd.2 hA).2] with y h1 h2
      exact ⟨⟨h1.le, h2.le⟩, fun _ => ⟨h1, h2⟩⟩
  | .acos, [A], hd =>
    refine nodeC_unary (h A (by simp)) (fun h => h) hd Real.arccos (fun y hy => ?_) (fun hA => ?_) fun _ =>
      Real.continuous_arccos.continuousAt
    · simp only [realApp]; rw [if_pos hy.1]
    · filter_upwards [lt_mem_nhds (hd.2 hA).1, gt_mem_nhds (hd.2 hA).2] with y h1 h2
      exact ⟨⟨h1.le, h2.le⟩, fun _ => ⟨h1, h2⟩⟩
  | .atan, [A], hd =>
    exact nodeC_unary (h A (by simp)) (fun h => h) hd Real.arctan (fun _ _ => rfl) (fun _ => .of_forall fun _ => trivial)
      fun _ => Real.continuous_arctan.continuousAt
  | .atan2, [Y, X], hd => exact nodeC_atan2 (h Y (by simp)) (h X (by simp)) hd
  | .sinh, [A], hd =>
    exact nodeC_unary (h A (by simp)) (fun h => h) hd Real.sinh (fun _ _ => rfl) (fun _ => .of_forall fun _ => trivial)
      fun _ => Real.continuous_sinh.continuousAt
  | .cosh, [A], hd =>
    exact nodeC_unary (h A (by simp)) (fun h => h) hd Real.cosh (fun _ _ => rfl) (fun _ => .of_forall fun _ => trivial)
      fun _ => Real.continuous_cosh.continuousAt
  | .tanh, [A], hd =>
    refine nodeC_unary (h A (by simp)) (fun h => h) hd Real.tanh (fun _ _ => rfl) (fun _ => .of_forall fun _ => trivial)
      fun _ => ?_
    have : Real.tanh = fun x => Real.sinh x / Real.cosh x := funext Real.tanh_eq_sinh_div_cosh
    rw [this]
    exact Real.continuous_sinh.continuousAt.div Real.continuous_cosh.continuousAt (Real.cosh_pos _).ne'
  | .asinh, [A], hd =>
    exact nodeC_unary (h A (by simp)) (fun h => h) hd Real.arsinh (fun _ _ => rfl) (fun _ => .of_forall fun _ => trivial)
      fun _ => Real.continuous_arsinh.continuousAt
  | .acosh, [A], hd =>
    refine nodeC_unary (h A (by simp)) (fun h => h) hd Real.arcosh (fun y hy => ?_) (fun hA => ?_) fun hA => ?_
    · simp only [realApp]; rw [if_pos hy.1]
    · filter_upwards [lt_mem_nhds (hd.2 hA)] with y h1
      exact ⟨h1.le, fun _ => h1⟩
    · exact (Real.hasDerivAt_arcosh (hd.2 hA)).continuousAt
  | .atanh, [A], hd =>
    refine nodeC_unary (h A (by simp)) (fun h => h) hd Real.artanh (fun y hy => ?_) (fun hA => ?_) fun hA => ?_
    · simp only [realApp]; rw [if_pos (show -1 < y ∧ y < 1 from hy)]
    · filter_upwards [lt_mem_nhds hd.1, gt_mem_nhds hd.2] with y h1 h2
      exact ⟨h1, h2⟩
    · exact (hasDerivAt_artanh hd.1 hd.2).continuousAt
  | .erf, [A], hd =>
    exact nodeC_unary (h A (by simp)) (fun h => h) hd realErf (fun _ _ => rfl) (fun _ => .of_forall fun _ => trivial)
      fun _ => realErf_continuous.continuousAt
  | .exp, [A], hd =>
    exact nodeC_unary (h A (by simp)) (fun h => h) hd Real.exp (fun _ _ => rfl) (fun _ => .of_forall fun _ => trivial)
      fun _ => Real.continuous_exp.continuousAt
  | .log, [A], hd =>
    refine nodeC_unary (h A (by simp)) (fun h => h) hd Real.log (fun y hy => ?_) (fun hA => ?_) fun hA => ?_
    · simp only [realApp]; rw [if_pos (show 0 < y from hy)]
    · exact lt_mem_nhds hd
    · exact Real.continuousAt_log (ne_of_gt hd)
  | .sigmoid, [A], hd =>
    exact nodeC_unary (h A (by simp)) (fun h => h) hd Real.sigmoid (fun _ _ => rfl) (fun _ => .of_forall fun _ => trivial)
      fun _ => continuous_sigmoid.continuousAt
  | .relu s, [A], hd =>
    refine nodeC_unary (h A (by simp)) (fun h => h) hd (fun x => if 0 < x then x else s * x) (fun y hy => by simp [realApp]) (fun hA => ?_) fun hA => ?_
    · exact (continuousAt_id.eventually_ne (hd hA)).mono fun y hy _ => hy
    · rcases lt_or_gt_of_ne (hd hA) with h1 | h1
      · refine (continuousAt_const.mul continuousAt_id).congr_of_eventuallyEq (f := fun x => s * x) ?_
        filter_upwards [gt_mem_nhds h1] with y hy
        exact if_neg hy.not_gt
      · refine continuousAt_id.congr_of_eventuallyEq ?_
        filter_upwards [lt_mem_nhds h1] with y hy
        exact if_pos hy
  | .relup s, [A], hd =>
    refine nodeC_unary (h A (by simp)) (fun h => h) hd (fun x => if 0 < x then 1 else s) (fun y hy => by simp [realApp]) (fun hA => ?_) fun hA => ?_
    · exact (continuousAt_id.eventually_ne (hd hA)).mono fun y hy _ => hy
    · rcases lt_or_gt_of_ne (hd hA) with h1 | h1
      · refine continuousAt_const.congr_of_eventuallyEq (f := fun _ => s) ?_
        filter_upwards [gt_mem_nhds h1] with y hy
        exact if_neg hy.not_gt
      · refine continuousAt_const.congr_of_eventuallyEq (f := fun _ => 1) ?_
        filter_upwards [lt_mem_nhds h1] with y hy
        exact if_pos hy
  | .select, [C, A, B], hd => exact nodeC_select (h C (by simp)) (h A (by simp)) (h B (by simp)) hd
  | .rel op, [A, B], hd => exact nodeC_rel op (h A (by simp)) (h B (by simp)) hd
  | .land, As, hd => exact nodeC_list h _ (.inl rfl) hd
  | .lor, As, hd => exact nodeC_list h _ (.inr rfl) hd
  | .time, [], _ => exact absurd rfl hf
  | .const name, [], hd =>
    exact nodeC_const (y := Real.pi) (by simp) (by simp) hd (by simp only [List.map_nil, realApp]; rw [if_pos (show name = "pi" from hd)])
  | .kepE, [e, M], hd => exact nodeC_kepE (h e (by simp)) (h M (by simp)) hd
  | .kepF, [a, b, c], hd => exact nodeC_kepF (h a (by simp)) (h b (by simp)) (h c (by simp)) hd
  | .kepDE, [a, b, c], hd => exact nodeC_kepDE (h a (by simp)) (h b (by simp)) (h c (by simp)) hd
  | .dfun id didx, As, hd => exact nodeC_dfun h hd

/-- A point depending continuously on a parameter. -/
structure EnvCont (w : Z → Env ℝ) (z₀ : Z) : Prop where
  var : ∀ s, ContinuousAt (fun z => (w z).var s) z₀
  par : ∀ i, ContinuousAt (fun z => (w z).par i) z₀
  time : ContinuousAt (fun z => (w z).time) z₀

/-- **The regular points form an open set** and the value is continuous there. -/
theorem Reg.near {w : Z → Env ℝ} (hw : EnvCont w z₀) {e : Expr ℝ} (h : Reg (w z₀) e) :
    ∃ F : Z → ℝ, ContinuousAt F z₀ ∧ (∀ᶠ z in 𝓝 z₀, Reg (w z) e ∧ e.eval (w z) = some (F z)) ∧
      (e.isBool → ∀ᶠ z in 𝓝 z₀, F z = F z₀) ∧ (e.isNum = true → ∀ᶠ z in 𝓝 z₀, F z = F z₀) := by
  induction e using Expr.ind with
  | num n =>
    obtain ⟨y, hy⟩ := Option.isSome_iff_exists.1 h
    exact ⟨fun _ => y, continuousAt_const, .of_forall fun z => ⟨h, by simpa using hy⟩, fun h => h.elim,
      fun _ => .of_forall fun _ => rfl⟩
  | var s => exact ⟨_, hw.var s, .of_forall fun z => ⟨trivial, by simp⟩, fun h => h.elim, fun h => by cases h⟩
  | par i => exact ⟨_, hw.par i, .of_forall fun z => ⟨trivial, by simp⟩, fun h => h.elim, fun h => by cases h⟩
  | fn f args ih =>
    rw [Reg, RegL_iff] at h
    obtain ⟨h1, vals, h2, h3⟩ := h
    by_cases hf : f = .time
    · subst hf
      cases args with
      | cons a as =>
        cases vals with
        | nil =>
          have := (Expr.evalL_eq_some.1 h2).length_eq
          simp at this
        | cons y ys => exact h3.elim
      | nil =>
        refine ⟨_, hw.time, .of_forall fun z => ⟨?_, by simp⟩, fun h => h.elim, fun h => by cases h⟩
        rw [Reg]
        exact ⟨trivial, [], by simp, trivial⟩
    -- the arguments as functions of the parameter
    have hF : ∀ a ∈ args, ∃ F : Z → ℝ, ContinuousAt F z₀ ∧ (∀ᶠ z in 𝓝 z₀, Reg (w z) a ∧ a.eval (w z) = some (F z)) ∧
      (a.isBool → ∀ᶠ z in 𝓝 z₀, F z = F z₀) ∧ (a.isNum = true → ∀ᶠ z in 𝓝 z₀, F z = F z₀) := fun a ha => ih a ha (h1 a ha)
    classical
    let F : Expr ℝ → Z → ℝ := fun a => if ha : a ∈ args then (hF a ha).choose else fun _ => 0
    have hF' : ∀ a ∈ args, ContinuousAt (F a) z₀ ∧ (∀ᶠ z in 𝓝 z₀, Reg (w z) a ∧ a.eval (w z) = some (F a z)) ∧
      (a.isBool → ∀ᶠ z in 𝓝 z₀, F a z = F a z₀) ∧ (a.isNum = true → ∀ᶠ z in 𝓝 z₀, F a z = F a z₀) := by
      intro a ha
      have := (hF a ha).choose_spec
      simpa only [F, dif_pos ha] using this
    have hev := eventually_list args fun a ha => (hF' a ha).2.1
    have hvals : ∀ z, (∀ a ∈ args, Reg (w z) a ∧ a.eval (w z) = some (F a z)) →
        Expr.evalL (w z) args = some (args.map fun a => F a z) := by
      intro z hz
      rw [Expr.evalL_eq_some, List.forall₂_map_right_iff, List.forall₂_same]
      exact fun a ha => (hz a ha).2
    have hzip : ∀ z, List.zipWith (fun a y => (⟨argDep f args a, a.isBool, y⟩ : ArgVal)) args (args.map fun a => F a z) =
        (args.map fun a => (⟨argDep f args a, a.isBool, F a⟩ : PArg Z)).map (·.at z) := by
      intro z
      rw [List.map_map, List.zipWith_map_right]
      simp [PArg.at, Function.comp_def, List.zipWith_self]
    have hz0 := hvals z₀ hev.self_of_nhds
    rw [hz0] at h2
    cases h2
    rw [hzip] at h3
    obtain ⟨G, hG, hev2, hb⟩ := nodeC (As := args.map fun a => (⟨argDep f args a, a.isBool, F a⟩ : PArg Z)) (by
      intro A hA
      obtain ⟨a, ha, rfl⟩ := List.mem_map.1 hA
      obtain ⟨g1, g2, g3, g4⟩ := hF' a ha
      refine ⟨g1, fun hd => g4 ?_, g3⟩
      by_contra hn
      exact hd (.inl (by simpa using hn))) hf h3
    refine ⟨G, hG, ?_, fun hbl => hb ?_, fun h => by cases h⟩
    · filter_upwards [hev, hev2] with z hz ⟨hz1, hz2⟩
      have hv := hvals z hz
      constructor
      · rw [Reg, RegL_iff]
        exact ⟨fun a ha => (hz a ha).1, _, hv, by rw [hzip]; exact hz1⟩
      · rw [Expr.eval_fn _ _ _ (.inl hf), hv, Option.bind_some, app_def, ← hz2, List.map_map]
        rfl
    · revert hbl
      cases f <;> exact fun h => h

/-- The regular points form an open set in the direction of a variable or parameter. -/
theorem Reg.near_set {v : Env ℝ} {e : Expr ℝ} (h : Reg v e) (x : DVar) : ∀ᶠ t in 𝓝 (v.get x), Reg (v.set x t) e := by
  obtain ⟨F, -, hF, -⟩ := Reg.near (Z := ℝ) (z₀ := v.get x) (w := fun t => v.set x t) (e := e) (by
    cases x with
    | var s =>
      refine ⟨fun s' => ?_, fun i => continuousAt_const, continuousAt_const⟩
      by_cases hs : s' = s
      · subst hs; simpa [Env.set] using continuous_id'.continuousAt
      · simpa [Env.set, hs] using continuousAt_const
    | par i =>
      refine ⟨fun s' => continuousAt_const, fun j => ?_, continuousAt_const⟩
      by_cases hs : j = i
      · subst hs; simpa [Env.set] using continuous_id'.continuousAt
      · simpa [Env.set, hs] using continuousAt_const) (by simpa using h)
  exact hF.mono fun t ht => ht.1

end Heyoka.Sym
