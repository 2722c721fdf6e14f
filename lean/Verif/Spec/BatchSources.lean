import Verif.Spec.BatchFields
import Verif.Model.BatchSources

/-! Batch shapes of the amplitudes of sources inside a stack. -/

namespace Fmmax.Spec

open Fmmax

variable {n m : ℕ}

/-- The values of the six amplitudes at a batch index. -/
structure SourceAmplitudesAt (A : BatchSourceAmplitudes n m) (i : List ℕ) (a : SourceAmplitudes (Fin n) (Fin m)) : Prop where
  backward0End : A.backward0End.elementAt i = .ok a.backward0End
  forwardBeforeStart : A.forwardBeforeStart.elementAt i = .ok a.forwardBeforeStart
  backwardBeforeEnd : A.backwardBeforeEnd.elementAt i = .ok a.backwardBeforeEnd
  forwardAfterStart : A.forwardAfterStart.elementAt i = .ok a.forwardAfterStart
  backwardAfterEnd : A.backwardAfterEnd.elementAt i = .ok a.backwardAfterEnd
  forwardNStart : A.forwardNStart.elementAt i = .ok a.forwardNStart

/-- All six amplitudes have the same batch shape. -/
structure SourceAmplitudesShape (A : BatchSourceAmplitudes n m) (s : List ℕ) : Prop where
  backward0End : A.backward0End.shape = s
  forwardBeforeStart : A.forwardBeforeStart.shape = s
  backwardBeforeEnd : A.backwardBeforeEnd.shape = s
  forwardAfterStart : A.forwardAfterStart.shape = s
  backwardAfterEnd : A.backwardAfterEnd.shape = s
  forwardNStart : A.forwardNStart.shape = s

end Fmmax.Spec
