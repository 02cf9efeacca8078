import Verif.Model.FFT
/-
Models `FFTRepr::shape` (src/fftrepr/mod.rs).
-/

namespace TClifford

/-- `shape`, src/fftrepr/mod.rs:254-256 (`view().dim()`; `view` is `intoArray3`). -/
def FFTRepr.shape {A : ClAlg} {K : Type} (r : FFTRepr A K) : Nat × Nat × Nat := r.intoArray3.dims

end TClifford
