import Verif.Model.Spectrum
import Mathlib.Analysis.SpecialFunctions.Complex.Arg

/-!
# Model of the complex spectrum and of the harmonic phases

`spectrum/compute_spectrum.py` in coherent mode, `spectrum/_harmonics.py`, `spectrum/plot_spectrum_polar.py`, without drawing.
-/

namespace Verif.Model

/-- `spectrum_complex` with the boundary correction. `spectrum/_spectrum_averaging.py:106-119`. -/
noncomputable def coherentComplex (runs : List (ℕ → ℝ)) (N nInband k : ℕ) : ℂ :=
  let v := coherentSum runs N nInband k
  let v := if k = 0 then v / (Real.sqrt 2 : ℂ) else v
  if N % 2 = 0 ∧ k = N / 2 then v / (Real.sqrt 2 : ℂ) else v

/-- `plot_data['complex_spectrum'][k]` of `compute_spectrum(data, ..., coherent_averaging=True)`, for `k ≤ N/2`.
`spectrum/compute_spectrum.py:66-96`. -/
noncomputable def polarSpectrum (lib : WinLib) (data : List (List ℝ)) (a : SpectrumArgs) : Py (ℕ → ℂ) :=
  match prepareFftInput data a.scale with
  | .error e => .error e
  | .ok d =>
    let N := (d.headD []).length
    match rfftInbandBinCount N a.osr with
    | .error e => .error e
    | .ok nInband =>
      let w := windowVector lib a.win N
      let corr := powerCorrection (windowGain w N) (windowEnbw w N)
      let cb := if 0 < a.cutoff then min ⌈a.cutoff / a.fs * N⌉.toNat (N / 2 + 1) else 0
      .ok fun k => if k < cb then 0 else coherentComplex (runsOf d w) N nInband k * (Real.sqrt corr : ℂ)

/-- `np.degrees(np.angle(z))`. -/
noncomputable def angleDeg (z : ℂ) : ℝ := Complex.arg z * (180 / Real.pi)

/-- `_calculate_harmonic_phases(spec, harmonic_bins)` for a spectrum of `len` bins. `spectrum/_harmonics.py:259-276`. The bins are not negative. -/
noncomputable def harmonicPhases (spec : ℕ → ℂ) (len : ℕ) (bins : List ℕ) : ℝ × ℝ :=
  (if 0 < bins.length ∧ bins.getD 0 0 < len then angleDeg (spec (bins.getD 0 0)) else 0,
   if 1 < bins.length ∧ bins.getD 1 0 < len then angleDeg (spec (bins.getD 1 0)) else 0)

/-- The angle that the polar plot prints behind `HD2` (`i = 0`) and `HD3` (`i = 1`). `spectrum/plot_spectrum_polar.py:114-125`. A level that is
NaN (`none`) is not above -149. -/
noncomputable def polarAnnotation (spec : ℕ → ℂ) (len : ℕ) (levels : Option (List EReal)) (bins collided : List ℕ) (i : ℕ) : ℝ :=
  match levels with
  | none => 0
  | some l =>
    let db : EReal := if i < l.length then l.getD i 0 else ((-150 : ℝ) : EReal)
    if ((-149 : ℝ) : EReal) < db ∧ i + 2 ∉ collided ∧ i < bins.length then
      if 0 < bins.getD i 0 ∧ bins.getD i 0 < len then angleDeg (spec (bins.getD i 0)) else 0
    else 0

end Verif.Model
