import Verif.Model.Calibration
import Verif.Model.MatlabFit

/-!
# Model of `matlab/src/wcalsin.m`, one dataset

Conventions of `Model/Calibration.lean`: a matrix is the list of its columns. `linsolve` is the least-squares parameter `Lstsq` (for a square matrix MATLAB
uses LU, which agrees when the matrix is invertible). `none` stands for `error(...)`, a rejected argument or a `NaN` frequency. Indices count from zero here.
-/

namespace Verif.Model

open Verif Finset

/-- `max(bits(:,i1))==min(bits(:,i1))`. `matlab/src/wcalsin.m:359`. -/
def mlConstant (N : ℕ) (c : ℕ → ℝ) : Prop := ∀ i < N, ∀ j < N, c i = c j

/-- `mean(r1.*r2)/rms(r1)/rms(r2)`; `none` is the `NaN` of a zero `rms`. `matlab/src/wcalsin.m:373-375`. -/
noncomputable def mlCorrelation (N : ℕ) (c e : ℕ → ℝ) : Option ℝ :=
  let r1 := fun n => c n - colMean N c
  let r2 := fun n => e n - colMean N e
  let g1 := Real.sqrt (colMean N fun n => r1 n ^ 2)
  let g2 := Real.sqrt (colMean N fun n => r2 n ^ 2)
  if g1 = 0 ∨ g2 = 0 then none else some (colMean N (fun n => r1 n * r2 n) / g1 / g2)

open Classical in
/-- First column of `bits_patch` with `|cor|` within `1e-3` of one; a `NaN` never is. `matlab/src/wcalsin.m:372-387`. -/
noncomputable def mlMergeTarget (N : ℕ) (col : ℕ → ℝ) (eff : List (ℕ → ℝ)) : Option ℕ :=
  (List.range eff.length).find? fun (j : ℕ) =>
    match mlCorrelation N col (eff.getD j 0) with
    | none => false
    | some cor => decide (|(|cor|) - 1| < 1 / 1000)

open Classical in
/-- One pass of the patching loop; `links` holds `L - 1` and `K`. `matlab/src/wcalsin.m:359-394`. -/
noncomputable def mlPatchStep (N : ℕ) (bits : List (ℕ → ℝ)) (nominal : List ℝ) (s : Patched) (bit : ℕ) : Patched :=
  let col := bits.getD bit 0
  if mlConstant N col then { s with links := s.links ++ [(-1, 0)] }
  else if rankOf N ((fun _ => 1) :: s.eff) < rankOf N ((fun _ => 1) :: (s.eff ++ [col])) then
    { eff := s.eff ++ [col], founders := s.founders ++ [bit], links := s.links ++ [((s.eff.length : ℤ), 1)] }
  else
    match mlMergeTarget N col s.eff with
    | none => { s with links := s.links ++ [(-1, 0)] }
    | some j =>
      let ratio := nominal.getD bit 0 / nominal.getD (s.founders.getD j 0) 0
      { s with eff := s.eff.set j (fun n => (s.eff.getD j 0) n + col n * nominal.getD bit 0 / nominal.getD (s.founders.getD j 0) 0),
               links := s.links ++ [((j : ℤ), ratio)] }

/-- The patched columns; `none` when the rank is still short afterwards or no column remains. `matlab/src/wcalsin.m:347-405`, with `autopatch` on. -/
noncomputable def mlPatch (N : ℕ) (bits : List (ℕ → ℝ)) (nominal : List ℝ) : Option Patched :=
  if rankOf N (bits ++ [fun _ => 1]) < bits.length + 1 then
    let P := (List.range bits.length).foldl (mlPatchStep N bits nominal) { eff := [], founders := [], links := [] }
    if rankOf N ((fun _ => 1) :: P.eff) < P.eff.length + 1 then none else if P.eff.length = 0 then none else some P
  else if bits.length = 0 then none
  else some { eff := bits, founders := List.range bits.length, links := (List.range bits.length).map fun (i : ℕ) => ((i : ℤ), (1 : ℝ)) }

/-- `MAG` of one column: `floor(log10(peak))`, zero for a zero column. `matlab/src/wcalsin.m:408-409`. -/
noncomputable def mlMag (N : ℕ) (c : ℕ → ℝ) : ℤ := if colPeak N c = 0 then 0 else ⌊Real.logb 10 (colPeak N c)⌋

/-- `bits_patch.*(ones(N,1)*10.^(-MAG))`. `matlab/src/wcalsin.m:410`. -/
noncomputable def mlScaled (N : ℕ) (cols : List (ℕ → ℝ)) : List (ℕ → ℝ) := cols.map fun c => fun n => c n * (10 : ℝ) ^ (-mlMag N c)

/-- `xc(n+1,h+1)`. `matlab/src/wcalsin.m:430-431`. -/
noncomputable def mlXc (f : ℝ) (h n : ℕ) : ℝ := Real.cos ((n : ℝ) * f * ((h : ℝ) + 1) * 2 * Real.pi)

/-- `xs(n+1,h+1)`. `matlab/src/wcalsin.m:430,432`. -/
noncomputable def mlXs (f : ℝ) (h n : ℕ) : ℝ := Real.sin ((n : ℝ) * f * ((h : ℝ) + 1) * 2 * Real.pi)

/-- The fit with the cosine (`sine = false`) or the sine as unity basis: matrix and right-hand side; `extra` is the appended derivative column, if any.
`matlab/src/wcalsin.m:434-439, 478-485`. -/
noncomputable def mlFitMatrix (cols : List (ℕ → ℝ)) (f : ℝ) (H : ℕ) (extra : List (ℕ → ℝ)) (sine : Bool) : List (ℕ → ℝ) × (ℕ → ℝ) :=
  if sine then
    (cols ++ [fun _ => 1] ++ (List.range (H - 1)).map (fun h => mlXs f (h + 1)) ++ (List.range H).map (mlXc f) ++ extra, fun n => -mlXs f 0 n)
  else
    (cols ++ [fun _ => 1] ++ (List.range (H - 1)).map (fun h => mlXc f (h + 1)) ++ (List.range H).map (mlXs f) ++ extra, fun n => -mlXc f 0 n)

/-- `rms(A*x-b)`. `matlab/src/wcalsin.m:441, 488`. -/
noncomputable def mlFitRms (N : ℕ) (A : List (ℕ → ℝ) × (ℕ → ℝ)) (x : List ℝ) : ℝ := Real.sqrt (colMean N fun n => (matVec A.1 x n - A.2 n) ^ 2)

/-- The first fit and `sel`. Both residuals are taken against the second right-hand side, `b` having been overwritten. `matlab/src/wcalsin.m:434-447`. -/
noncomputable def mlFitOpen (solve : Lstsq) (N : ℕ) (cols : List (ℕ → ℝ)) (f : ℝ) (H : ℕ) : List ℝ × Bool :=
  let A1 := mlFitMatrix cols f H [] false
  let x1 := solve N A1.1 A1.2
  let A2 := mlFitMatrix cols f H [] true
  let x2 := solve N A2.1 A2.2
  if mlFitRms N (A1.1, A2.2) x1 < mlFitRms N A2 x2 then (x1, false) else (x2, true)

/-- The better of the two fits of the fine search and `sel`. `matlab/src/wcalsin.m:478-495`. -/
noncomputable def mlFitBoth (solve : Lstsq) (N : ℕ) (cols : List (ℕ → ℝ)) (f : ℝ) (H : ℕ) (extra : List (ℕ → ℝ)) : List ℝ × Bool :=
  let A1 := mlFitMatrix cols f H extra false
  let x1 := solve N A1.1 A1.2
  let A2 := mlFitMatrix cols f H extra true
  let x2 := solve N A2.1 A2.2
  if mlFitRms N A1 x1 < mlFitRms N A2 x2 then (x1, false) else (x2, true)

/-- Coefficients of the unity basis: `[1,x(M+2:M+order)']`. `matlab/src/wcalsin.m:467, 470`. -/
def mlUnity (M : ℕ) (x : List ℝ) (h : ℕ) : ℝ := if h = 0 then 1 else x.getD (M + h) 0

/-- Coefficients of the other basis: `x(M+1+order:M+order*2)'`. `matlab/src/wcalsin.m:468, 471`. -/
def mlOther (M H : ℕ) (x : List ℝ) (h : ℕ) : ℝ := x.getD (M + H + h) 0

/-- `sum(xcd+xsd,2)`. `matlab/src/wcalsin.m:465-475, 478`. -/
noncomputable def mlDerivColumn (N M : ℕ) (f : ℝ) (H : ℕ) (x : List ℝ) (sel : Bool) (n : ℕ) : ℝ :=
  ∑ h ∈ range H,
    (-2 * Real.pi * ((if sel then mlOther M H x h else mlUnity M x h) * ((h : ℝ) + 1)) * n * mlXs f h n / N
      + 2 * Real.pi * ((if sel then mlUnity M x h else mlOther M H x h) * ((h : ℝ) + 1)) * n * mlXc f h n / N)

/-- `relerr`. `matlab/src/wcalsin.m:498`. -/
noncomputable def mlRelErr (N M H : ℕ) (x : List ℝ) (D : ℕ → ℝ) : ℝ :=
  Real.sqrt (colMean N fun n => (x.getD (x.length - 1) 0 / N * D n) ^ 2) / Real.sqrt (1 + x.getD (M + H) 0 ^ 2)

/-- The fine frequency search with `k` iterations left, started at `freq` with correction `delta` and the fit `x`, `sel`. The frequency returned is the one
of the last fit. `matlab/src/wcalsin.m:451-508`. -/
noncomputable def mlFineSearch (solve : Lstsq) (N : ℕ) (cols : List (ℕ → ℝ)) (H : ℕ) (rate reltol : ℝ) : ℕ → ℝ → ℝ → List ℝ → Bool → ℝ × List ℝ × Bool
  | 0, freq, _, x, sel => (freq, x, sel)
  | k + 1, freq, delta, x, sel =>
    let f := freq + delta
    let D := mlDerivColumn N cols.length f H x sel
    let r := mlFitBoth solve N cols f H [D]
    if mlRelErr N cols.length H r.1 D < reltol then (f, r)
    else mlFineSearch solve N cols H rate reltol k f (r.1.getD (r.1.length - 1) 0 * rate / N) r.1 r.2

/-- What `wcalsin` returns for one dataset. `matlab/src/wcalsin.m:1` and `520-549`. -/
structure MlCal where
  weight : List ℝ
  offset : ℝ
  postcal : List ℝ
  ideal : List ℝ
  err : List ℝ
  freqcal : ℝ

/-- The results from the fit. `matlab/src/wcalsin.m:520-549`; `pol` is the sign flip of lines 540-546. -/
noncomputable def mlCalResult (N : ℕ) (bits : List (ℕ → ℝ)) (P : Patched) (f : ℝ) (H : ℕ) (x : List ℝ) (sel : Bool) : MlCal :=
  let M := P.eff.length
  let w0 := Real.sqrt (1 + x.getD (M + H) 0 ^ 2)
  let wp := (List.range M).map fun (j : ℕ) => x.getD j 0 / w0 * (10 : ℝ) ^ (-mlMag N (P.eff.getD j 0))
  let weight := P.links.map fun l => wp.getD (max l.1 0).toNat 0 * l.2
  let offset := -x.getD M 0 / w0
  let post := fun (n : ℕ) => matVec bits weight n
  let ideal := fun (n : ℕ) => if sel then
      -(mlXs f 0 n + ∑ h ∈ range (H - 1), mlXs f (h + 1) n * x.getD (M + 1 + h) 0 + ∑ h ∈ range H, mlXc f h n * x.getD (M + H + h) 0) / w0
    else -(mlXc f 0 n + ∑ h ∈ range (H - 1), mlXc f (h + 1) n * x.getD (M + 1 + h) 0 + ∑ h ∈ range H, mlXs f h n * x.getD (M + H + h) 0) / w0
  let pol : ℝ := if weight.sum < 0 then -1 else 1
  { weight := weight.map fun v => v * pol
    offset := offset * pol
    postcal := (List.range N).map fun n => post n * pol
    ideal := (List.range N).map fun n => ideal n * pol
    err := (List.range N).map fun n => (post n - offset - ideal n) * pol
    freqcal := f }

/-- `nomWeight`, by default binary. `matlab/src/wcalsin.m:343-345`. A list of the wrong length is not rejected there. -/
def mlNominal (width : ℕ) (given : Option (List ℝ)) : List ℝ :=
  match given with
  | none => (List.range width).map fun (i : ℕ) => (2 : ℝ) ^ (width - 1 - i)
  | some w => w

/-- The coarse frequency: median over the first columns, at most five, of `findfreq` of their sums with nominal weights. `matlab/src/wcalsin.m:413-428`. -/
noncomputable def mlCoarse (solve : Lstsq) (N : ℕ) (scaled : List (ℕ → ℝ)) (P : Patched) (nominal : List ℝ) : Option ℝ :=
  let est := (List.range (min scaled.length 5)).map fun (i : ℕ) =>
    mlFindfreq solve N (matVec (scaled.take (i + 1)) ((P.founders.take (i + 1)).map fun k => nominal.getD k 0)) 1
  if none ∈ est then none else some (median (est.map fun v => v.getD 0))

open Classical in
/-- `wcalsin(bits, freq, rate, reltol, niter, order, fsearch, nomWeight)` on one dataset given by its rows. `matlab/src/wcalsin.m:310-556`; `order` is taken as
already rounded, `autotrans` and `autopatch` are on, the warnings are left out. -/
noncomputable def mlWcalsin (solve : Lstsq) (seg : List (List ℝ)) (freq rate reltol : ℝ) (niter H : ℕ) (fsearch : Bool) (given : Option (List ℝ)) :
    Option MlCal :=
  if freq < 0 ∨ rate ≤ 0 ∨ 1 ≤ rate ∨ reltol ≤ 0 ∨ niter = 0 ∨ H = 0 then none
  else
    let rows := orientSegment seg
    let N := rows.length
    let width := (rows.headD []).length
    let nominal := mlNominal width given
    let bits := (List.range width).map fun (j : ℕ) => fun (n : ℕ) => (rows.getD n []).getD j 0
    match mlPatch N bits nominal with
    | none => none
    | some P =>
      let scaled := mlScaled N P.eff
      match (if freq = 0 then mlCoarse solve N scaled P nominal else some freq) with
      | none => none
      | some f =>
        let r := mlFitOpen solve N scaled f H
        if fsearch ∨ freq = 0 then
          let s := mlFineSearch solve N scaled H rate reltol niter f 0 r.1 r.2
          some (mlCalResult N bits P s.1 H s.2.1 s.2.2)
        else some (mlCalResult N bits P f H r.1 r.2)

end Verif.Model
