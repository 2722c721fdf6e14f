import Verif.Spec.Modes
import Verif.Spec.Symmetry

/-!
Specification of the passage of plane waves through homogeneous layers: for each polarisation a layer acts as a section of a transmission line
(stated with scalars only, no matrices), and the coefficients of Fresnel and Airy.
-/

namespace Fmmax.Spec

open Matrix

/-- A homogeneous layer as seen by a plane wave of one polarisation: the ratio of the tangential electric to the tangential magnetic field of a forward
wave, the component of the wavevector along `z`, and the thickness. -/
structure LineSection where
  impedance : ℂ
  wavenumber : ℂ
  length : ℝ

/-- A section with its forward amplitude at the start and its backward amplitude at the end, both of the magnetic field. -/
structure LineState extends LineSection where
  a : ℂ
  b : ℂ

namespace LineState

/-- Tangential magnetic field at depth `z`. -/
noncomputable def magnetic (s : LineState) (z : ℝ) : ℂ :=
  Complex.exp (Complex.I * s.wavenumber * z) * s.a + Complex.exp (Complex.I * s.wavenumber * (s.length - z : ℝ)) * s.b

/-- Tangential electric field at depth `z`. -/
noncomputable def electric (s : LineState) (z : ℝ) : ℂ :=
  s.impedance * (Complex.exp (Complex.I * s.wavenumber * z) * s.a - Complex.exp (Complex.I * s.wavenumber * (s.length - z : ℝ)) * s.b)

/-- Continuity of the tangential fields. -/
def Junction (s t : LineState) : Prop := s.electric s.length = t.electric 0 ∧ s.magnetic s.length = t.magnetic 0

end LineState

/-- Transverse electric (s) and transverse magnetic (p) waves. -/
inductive Polarization
  | te
  | tm

namespace Polarization

/-- The tangential magnetic field `(hx, hy)` of a wave with in-plane wavevector `k`: parallel to `k` for TE waves, perpendicular to it for TM waves.  (At
normal incidence every field is of both kinds.) -/
def Along : Polarization → ℝ × ℝ → ℂ × ℂ → Prop
  | te, k, p => p.1 * k.2 = p.2 * k.1
  | tm, k, p => p.1 * k.1 + p.2 * k.2 = 0

/-- Wave impedance for the angular frequency `ω`, the permittivity `ε` and the component `q` of the wavevector along `z`. -/
noncomputable def impedance (ω : ℝ) (ε q : ℂ) : Polarization → ℂ
  | te => ω / q
  | tm => q / (ε * ω)

/-- Fresnel's reflection coefficient of the tangential magnetic field, for a wave that comes from medium 1; `q₁`, `q₂` are the components of the wavevector
along `z`.  (For the electric field of TE waves the sign is opposite.) -/
noncomputable def reflection (ε₁ q₁ ε₂ q₂ : ℂ) : Polarization → ℂ
  | te => (q₂ - q₁) / (q₁ + q₂)
  | tm => (ε₂ * q₁ - ε₁ * q₂) / (ε₂ * q₁ + ε₁ * q₂)

/-- Fresnel's transmission coefficient of the tangential magnetic field, from medium 1 to medium 2. -/
noncomputable def transmission (ε₁ q₁ ε₂ q₂ : ℂ) : Polarization → ℂ
  | te => 2 * q₂ / (q₁ + q₂)
  | tm => 2 * ε₂ * q₁ / (ε₂ * q₁ + ε₁ * q₂)

/-- The denominator of the Fresnel coefficients; where it vanishes there is a surface wave. -/
def denominator (ε₁ q₁ ε₂ q₂ : ℂ) : Polarization → ℂ
  | te => q₁ + q₂
  | tm => ε₂ * q₁ + ε₁ * q₂

/-- The section for a wave with in-plane wavevector `k` in a medium of permittivity `ε` and thickness `d`. -/
structure IsSection (pol : Polarization) (ω : ℝ) (k : ℝ × ℝ) (m : ℂ × ℝ) (s : LineSection) : Prop where
  wavenumber : IsForwardRoot (m.1 * (ω : ℂ) ^ 2 - (k.1 : ℂ) ^ 2 - (k.2 : ℂ) ^ 2) s.wavenumber
  impedance : s.impedance = pol.impedance ω m.1 s.wavenumber
  length : s.length = m.2

/-- Waves in a sequence of media (permittivity and thickness): tangential fields are continuous. -/
def Waves (pol : Polarization) (ω : ℝ) (k : ℝ × ℝ) (media : List (ℂ × ℝ)) (ws : List LineState) : Prop :=
  List.Forall₂ (fun m w => pol.IsSection ω k m w.toLineSection) media ws ∧ ws.IsChain LineState.Junction

/-- Waves without incoming waves vanish. -/
def NoResonance (pol : Polarization) (ω : ℝ) (k : ℝ × ℝ) (media : List (ℂ × ℝ)) : Prop :=
  ∀ ws first last, pol.Waves ω k media ws → ws.head? = some first → ws.getLast? = some last → first.a = 0 → last.b = 0 →
    ∀ w ∈ ws, w.a = 0 ∧ w.b = 0

end Polarization

variable {ι : Type}

/-- The Fourier coefficients of the plane wave of order `i` with tangential field `p`. -/
def orderWave [DecidableEq ι] (i : ι) (p : ℂ × ℂ) : ι ⊕ ι → ℂ :=
  Sum.elim (fun j => if j = i then p.1 else 0) (fun j => if j = i then p.2 else 0)

/-- A homogeneous isotropic layer, given by its permittivity and its thickness. -/
def homogeneous (m : ℂ × ℝ) : StackLayer ι :=
  { nx := 1, ny := 1, medium := .isotropic (Matrix.of fun _ _ => m.1) .fft, thickness := m.2 }

/-- `q` are the components of the wavevectors along `z` in a medium of permittivity `ε`, for the in-plane wavevectors `k`. -/
def ZWavenumbers (c : Setup ι) (k : ι → ℝ × ℝ) (ε : ℂ) (q : ι → ℂ) : Prop :=
  ∀ i, IsForwardRoot (ε * ((2 * Real.pi / c.wavelength : ℝ) : ℂ) ^ 2 - ((k i).1 : ℂ) ^ 2 - ((k i).2 : ℂ) ^ 2) (q i)

end Fmmax.Spec
