import Verif.DFloat.Mul

/-!
# Reduction of the arguments of trigonometric functions

Model of `llvm_trig_arg_reduce()` (`src/detail/llvm_helpers_celmec.cpp`) with its roundings. NaN is not modelled.
-/

namespace Heyoka.DFloat

/-- `llvm_clamp()`, llvm_helpers_celmec.cpp:129-136. -/
def clampQ (x lb ub : ℚ) : ℚ := min (max x lb) ub

/-- `llvm_trig_arg_reduce()`, llvm_helpers_celmec.cpp:140-176: `twopi` is the double-length approximation of `2π`, `top` is the number which
precedes its high part. Both are parameters here. -/
def trigReduce (rnd : ℚ → ℚ) (twopi : DF) (top x : ℚ) : ℚ := clampQ (dlMod rnd ⟨x, 0⟩ twopi).hi 0 top

end Heyoka.DFloat
