import Verif.Spec.SupercellEmission

/-! Specification: combinations of columns of currents, amplitudes and fields. -/

namespace Fmmax.Spec

open Matrix

variable {γ : Type} {N N' M : ℕ}

/-- Column `j` is the combination of columns of `F` with coefficients `W · j`, plus the combination of columns of `F'` with coefficients `W' · j`. -/
noncomputable def combine (W : Matrix (Fin N) (Fin M) ℂ) (W' : Matrix (Fin N') (Fin M) ℂ) (F : γ → Fin N → ℂ) (F' : γ → Fin N' → ℂ) (p : γ) (j : Fin M) : ℂ :=
  ∑ s, F p s * W s j + ∑ s, F' p s * W' s j

/-- Every component of the fields is combined. -/
noncomputable def combineFields (W : Matrix (Fin N) (Fin M) ℂ) (W' : Matrix (Fin N') (Fin M) ℂ) (F : Fields (γ → Fin N → ℂ)) (F' : Fields (γ → Fin N' → ℂ)) :
    Fields (γ → Fin M → ℂ) :=
  { ex := combine W W' F.ex F'.ex, ey := combine W W' F.ey F'.ey, ez := combine W W' F.ez F'.ez,
    hx := combine W W' F.hx F'.hx, hy := combine W W' F.hy F'.hy, hz := combine W W' F.hz F'.hz }

end Fmmax.Spec
